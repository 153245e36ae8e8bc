import Verif.Model.Rounding
import Mathlib.Algebra.Order.Field.Power

/-!
# Facts about rounding
-/

set_option autoImplicit false

namespace MiniOpt.F64

theorem pow2_eq (k : Int) : pow2 k = (2 : ℚ) ^ k := by
  unfold pow2
  split_ifs with h
  · obtain ⟨n, rfl⟩ := Int.eq_ofNat_of_zero_le h
    simp
  · obtain ⟨n, hn⟩ := Int.eq_ofNat_of_zero_le (show 0 ≤ -k by omega)
    have : k = -(n : Int) := by omega
    subst this
    simp

theorem pow2_pos (k : Int) : 0 < pow2 k := by rw [pow2_eq]; positivity

theorem pow2_add (a b : Int) : pow2 (a + b) = pow2 a * pow2 b := by
  rw [pow2_eq, pow2_eq, pow2_eq, zpow_add₀ (by norm_num)]

theorem pow2_mono {a b : Int} (h : a ≤ b) : pow2 a ≤ pow2 b := by
  rw [pow2_eq, pow2_eq]; exact zpow_le_zpow_right₀ (by norm_num) h

theorem pow2_lt {a b : Int} (h : a < b) : pow2 a < pow2 b := by
  rw [pow2_eq, pow2_eq]; exact zpow_lt_zpow_right₀ (by norm_num) h

theorem pow2_lt_iff {a b : Int} : pow2 a < pow2 b ↔ a < b :=
  ⟨fun h => by by_contra hc; exact absurd (pow2_mono (not_lt.mp hc)) (not_le.mpr h), pow2_lt⟩

theorem pow2_nat (n : Nat) : pow2 (n : Int) = ((2 ^ n : Nat) : ℚ) := by
  rw [pow2_eq]; push_cast; rw [zpow_natCast]

theorem ilog2_spec {q : ℚ} (h : 0 < q) : pow2 (ilog2 q) ≤ q ∧ q < pow2 (ilog2 q + 1) := by
  have hn : 0 < q.num := Rat.num_pos.mpr h
  have hn0 : q.num.natAbs ≠ 0 := by omega
  have hq : q = (q.num.natAbs : ℚ) / (q.den : ℚ) := by
    have h1 : ((q.num.natAbs : Int) : ℚ) = (q.num : ℚ) := by rw [Int.natAbs_of_nonneg hn.le]
    rw [← Int.cast_natCast, h1, Rat.num_div_den]
  set a := Nat.log2 q.num.natAbs with ha
  set b := Nat.log2 q.den with hb
  have h1 : ((2 ^ a : Nat) : ℚ) ≤ (q.num.natAbs : ℚ) := by exact_mod_cast Nat.log2_self_le hn0
  have h2 : (q.num.natAbs : ℚ) < ((2 ^ (a + 1) : Nat) : ℚ) := by exact_mod_cast Nat.lt_log2_self
  have h3 : ((2 ^ b : Nat) : ℚ) ≤ (q.den : ℚ) := by exact_mod_cast Nat.log2_self_le q.den_nz
  have h4 : (q.den : ℚ) < ((2 ^ (b + 1) : Nat) : ℚ) := by exact_mod_cast Nat.lt_log2_self
  have hd : (0 : ℚ) < (q.den : ℚ) := by exact_mod_cast q.den_pos
  rw [← pow2_nat] at h1 h2 h3 h4
  have up : q < pow2 ((a : Int) - b + 1) := by
    rw [hq, div_lt_iff₀ hd]
    calc (q.num.natAbs : ℚ) < pow2 ((a + 1 : Nat) : Int) := h2
      _ = pow2 ((a : Int) - b + 1) * pow2 (b : Int) := by rw [← pow2_add]; congr 1; push_cast; ring
      _ ≤ _ := mul_le_mul_of_nonneg_left h3 (pow2_pos _).le
  have lo : pow2 ((a : Int) - b - 1) < q := by
    rw [hq, lt_div_iff₀ hd]
    calc pow2 ((a : Int) - b - 1) * (q.den : ℚ) < pow2 ((a : Int) - b - 1) * pow2 ((b + 1 : Nat) : Int) :=
          mul_lt_mul_of_pos_left h4 (pow2_pos _)
      _ = pow2 (a : Int) := by rw [← pow2_add]; congr 1; push_cast; ring
      _ ≤ _ := h1
  have hdef : ilog2 q = if pow2 ((a : Int) - b) ≤ q then (a : Int) - b else (a : Int) - b - 1 := rfl
  rw [hdef]
  split_ifs with hc
  · exact ⟨hc, up⟩
  · exact ⟨lo.le, by rw [show (a : Int) - b - 1 + 1 = (a : Int) - b by ring]; exact not_le.mp hc⟩

theorem ilog2_mono {p q : ℚ} (hp : 0 < p) (h : p ≤ q) : ilog2 p ≤ ilog2 q := by
  have h1 := ilog2_spec hp
  have h2 := ilog2_spec (hp.trans_le h)
  have : ilog2 p < ilog2 q + 1 := pow2_lt_iff.mp (h1.1.trans_lt (h.trans_lt h2.2))
  omega

theorem ilog2_eq {q : ℚ} {k : Int} (h1 : pow2 k ≤ q) (h2 : q < pow2 (k + 1)) : ilog2 q = k := by
  have h := ilog2_spec ((pow2_pos k).trans_le h1)
  have a := pow2_lt_iff.mp (h.1.trans_lt h2)
  have b := pow2_lt_iff.mp (h1.trans_lt h.2)
  omega

/-! ### Integers -/

theorem rne_int (n : Int) : rne (n : ℚ) = n := by
  have : ((n : ℚ)).floor = n := (show ((n : ℚ)).floor = ⌊(n : ℚ)⌋ from rfl).trans (Int.floor_intCast n)
  unfold rne
  simp only [this, sub_self]
  norm_num

theorem rne_err (q : ℚ) : |(rne q : ℚ) - q| ≤ 1 / 2 := by
  have h1 := Int.floor_le q
  have h2 := Int.lt_floor_add_one q
  unfold rne
  have : q.floor = ⌊q⌋ := rfl
  rw [this]
  simp only
  split_ifs with ha hb hc <;> rw [abs_le] <;> constructor <;> push_cast <;> linarith

theorem rne_mono {p q : ℚ} (h : p ≤ q) : rne p ≤ rne q := by
  by_contra hc
  have hlt : rne q < rne p := not_le.mp hc
  have h1 := abs_le.mp (rne_err p)
  have h2 := abs_le.mp (rne_err q)
  have hge : ((rne q : Int) : ℚ) + 1 ≤ rne p := by exact_mod_cast hlt
  -- both errors are exactly one half, so p = q
  have : p = q := by linarith
  subst this
  exact absurd rfl hlt.ne

theorem rne_nonneg {q : ℚ} (h : 0 ≤ q) : 0 ≤ rne q := by
  have := rne_mono h
  have h0 := rne_int 0
  simp at h0
  omega

/-! ### Magnitudes -/

theorem roundMag_zero : roundMag 0 = 0 := if_pos rfl

theorem roundMag_pos_eq {q : ℚ} (h : 0 < q) : roundMag q = rne (q / pow2 (ulpExp q)) * pow2 (ulpExp q) :=
  if_neg h.ne'

theorem roundMag_nonneg {q : ℚ} (h : 0 ≤ q) : 0 ≤ roundMag q := by
  unfold roundMag
  split_ifs
  · exact le_rfl
  · have : 0 ≤ rne (q / pow2 (ulpExp q)) := rne_nonneg (div_nonneg h (pow2_pos _).le)
    exact mul_nonneg (by exact_mod_cast this) (pow2_pos _).le

/-- A multiple of the unit in the last place is a bound for the rounded value. -/
theorem roundMag_le_mul {q : ℚ} (h : 0 < q) {n : Int} (hn : q ≤ n * pow2 (ulpExp q)) :
    roundMag q ≤ n * pow2 (ulpExp q) := by
  rw [roundMag_pos_eq h]
  apply mul_le_mul_of_nonneg_right _ (pow2_pos _).le
  have : rne (q / pow2 (ulpExp q)) ≤ rne (n : ℚ) := rne_mono ((div_le_iff₀ (pow2_pos _)).mpr hn)
  rw [rne_int] at this
  exact_mod_cast this

theorem mul_le_roundMag {q : ℚ} (h : 0 < q) {n : Int} (hn : n * pow2 (ulpExp q) ≤ q) :
    n * pow2 (ulpExp q) ≤ roundMag q := by
  rw [roundMag_pos_eq h]
  apply mul_le_mul_of_nonneg_right _ (pow2_pos _).le
  have : rne (n : ℚ) ≤ rne (q / pow2 (ulpExp q)) := rne_mono ((le_div_iff₀ (pow2_pos _)).mpr hn)
  rw [rne_int] at this
  exact_mod_cast this

/-- Powers of two from the last place upwards are multiples of the last place. -/
theorem pow2_split {e k : Int} (h : e ≤ k) : ∃ n : Int, pow2 k = n * pow2 e := by
  obtain ⟨n, hn⟩ := Int.eq_ofNat_of_zero_le (show 0 ≤ k - e by omega)
  refine ⟨2 ^ n, ?_⟩
  rw [show k = (n : Int) + e by omega, pow2_add, pow2_nat]
  push_cast
  rfl

theorem roundMag_mono {p q : ℚ} (hp : 0 ≤ p) (h : p ≤ q) : roundMag p ≤ roundMag q := by
  rcases hp.eq_or_lt with rfl | hp
  · rw [roundMag_zero]; exact roundMag_nonneg h
  have hq := hp.trans_le h
  have hl := ilog2_mono hp h
  by_cases he : ulpExp p = ulpExp q
  · rw [roundMag_pos_eq hp, roundMag_pos_eq hq, he]
    apply mul_le_mul_of_nonneg_right _ (pow2_pos _).le
    exact_mod_cast rne_mono (div_le_div_of_nonneg_right h (pow2_pos _).le)
  · have he' : ulpExp p < ulpExp q := by unfold ulpExp at he ⊢; omega
    have hk : ilog2 p < ilog2 q := by unfold ulpExp at he'; omega
    have h1 : roundMag p ≤ pow2 (max (ilog2 p + 1) (ulpExp p)) := by
      obtain ⟨n, hn⟩ := pow2_split (le_max_right (ilog2 p + 1) (ulpExp p))
      rw [hn]
      apply roundMag_le_mul hp
      rw [← hn]; exact (ilog2_spec hp).2.le.trans (pow2_mono (le_max_left _ _))
    have h2 : pow2 (ilog2 q) ≤ roundMag q := by
      obtain ⟨n, hn⟩ := pow2_split (show ulpExp q ≤ ilog2 q by unfold ulpExp at he' ⊢; omega)
      rw [hn]
      apply mul_le_roundMag hq
      rw [← hn]; exact (ilog2_spec hq).1
    exact h1.trans ((pow2_mono (by unfold ulpExp at he' ⊢; omega)).trans h2)

theorem roundMag_rep {q : ℚ} (h : 0 ≤ q) :
    ∃ (m : Nat) (e : Int), m < 2 ^ 53 ∧ -1074 ≤ e ∧ roundMag q = m * pow2 e := by
  rcases h.eq_or_lt with rfl | h
  · exact ⟨0, 0, by norm_num, by norm_num, by rw [roundMag_zero]; norm_num⟩
  have hr := roundMag_pos_eq h
  have hn := rne_nonneg (div_nonneg h.le (pow2_pos (ulpExp q)).le)
  obtain ⟨m, hm⟩ := Int.eq_ofNat_of_zero_le hn
  rw [hm] at hr
  have hle : m ≤ 2 ^ 53 := by
    have h1 : q / pow2 (ulpExp q) ≤ ((2 ^ 53 : Int) : ℚ) := by
      rw [div_le_iff₀ (pow2_pos _)]
      have h2 : pow2 (ilog2 q + 1) ≤ pow2 (53 + ulpExp q) := pow2_mono (by unfold ulpExp; omega)
      rw [pow2_add 53, show (53 : Int) = ((53 : Nat) : Int) from rfl, pow2_nat] at h2
      push_cast at h2 ⊢
      exact (ilog2_spec h).2.le.trans h2
    have h3 := rne_mono h1
    rw [rne_int, hm] at h3
    exact_mod_cast h3
  rcases hle.lt_or_eq with hlt | rfl
  · exact ⟨m, ulpExp q, hlt, le_max_right _ _, hr⟩
  · refine ⟨2 ^ 52, ulpExp q + 1, by norm_num, by unfold ulpExp; omega, ?_⟩
    rw [hr, pow2_add, show pow2 1 = 2 by decide +kernel]
    push_cast
    ring

theorem roundMag_id {q : ℚ} (h : ∃ (m : Nat) (e : Int), m < 2 ^ 53 ∧ -1074 ≤ e ∧ q = m * pow2 e) :
    roundMag q = q := by
  obtain ⟨m, e, hm, he, hq⟩ := h
  have hnn : 0 ≤ q := by rw [hq]; exact mul_nonneg (by positivity) (pow2_pos _).le
  rcases hnn.eq_or_lt with h0 | hpos
  · rw [← h0, roundMag_zero]
  have hue : ulpExp q ≤ e := by
    by_contra hc
    have hc : e < ulpExp q := not_le.mp hc
    have hu : ulpExp q = ilog2 q - 52 := by unfold ulpExp at hc ⊢; omega
    have h1 := (ilog2_spec hpos).1
    have h2 : pow2 (53 + e) ≤ pow2 (ilog2 q) := pow2_mono (by omega)
    rw [pow2_add, show (53 : Int) = ((53 : Nat) : Int) from rfl, pow2_nat] at h2
    have h3 : (m : ℚ) * pow2 e < ((2 ^ 53 : Nat) : ℚ) * pow2 e :=
      mul_lt_mul_of_pos_right (by exact_mod_cast hm) (pow2_pos _)
    rw [← hq] at h3
    linarith
  obtain ⟨n, hn⟩ := pow2_split hue
  have hq' : q = ((m * n : Int) : ℚ) * pow2 (ulpExp q) := by
    rw [hn] at hq; push_cast; rw [mul_assoc]; exact hq
  rw [roundMag_pos_eq hpos]
  have : q / pow2 (ulpExp q) = ((m * n : Int) : ℚ) := by
    rw [div_eq_iff (pow2_pos _).ne']; exact hq'
  rw [this, rne_int]
  exact hq'.symm

/-- Relative error in the normal range, absolute error below. -/
theorem roundMag_err {q : ℚ} (h : 0 < q) : |roundMag q - q| ≤ max (q * pow2 (-53)) (pow2 (-1075)) := by
  rw [roundMag_pos_eq h]
  have hu := pow2_pos (ulpExp q)
  have h1 : |(rne (q / pow2 (ulpExp q)) : ℚ) * pow2 (ulpExp q) - q| ≤ 1 / 2 * pow2 (ulpExp q) := by
    have := rne_err (q / pow2 (ulpExp q))
    calc |(rne (q / pow2 (ulpExp q)) : ℚ) * pow2 (ulpExp q) - q|
        = |((rne (q / pow2 (ulpExp q)) : ℚ) - q / pow2 (ulpExp q)) * pow2 (ulpExp q)| := by
          rw [sub_mul, div_mul_cancel₀ _ hu.ne']
      _ = |(rne (q / pow2 (ulpExp q)) : ℚ) - q / pow2 (ulpExp q)| * pow2 (ulpExp q) := by
          rw [abs_mul, abs_of_pos hu]
      _ ≤ _ := mul_le_mul_of_nonneg_right this hu.le
  refine h1.trans ?_
  have hhalf : (1 / 2 : ℚ) = pow2 (-1) := by decide +kernel
  rw [hhalf, ← pow2_add]
  rcases le_total (ilog2 q - 52) (-1074) with hc | hc
  · refine le_max_of_le_right (le_of_eq ?_)
    congr 1
    unfold ulpExp; omega
  · refine le_max_of_le_left ?_
    have : -1 + ulpExp q = ilog2 q + -53 := by unfold ulpExp; omega
    rw [this, pow2_add]
    exact mul_le_mul_of_nonneg_right (ilog2_spec h).1 (pow2_pos _).le

/-- Nothing from `2^-1074` upwards is rounded to zero. -/
theorem roundMag_pos {q : ℚ} (h : pow2 (-1074) ≤ q) : 0 < roundMag q := by
  have := roundMag_mono (pow2_pos _).le h
  rw [roundMag_id ⟨1, -1074, by norm_num, le_rfl, by norm_num⟩] at this
  exact (pow2_pos _).trans_le this

end MiniOpt.F64
