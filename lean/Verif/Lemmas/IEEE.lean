import Verif.Spec.IEEE
import Verif.Lemmas.F64

/-!
# The model of `double` rounds as IEEE 754 says

`Verif/Model/F64.lean` computes rounded results in rational arithmetic.  The theorems here say that `+`, `-`, `*`, `/`, decimal
literals and `sqrt` on finite doubles return what the standard defines (`Verif/Spec/IEEE.lean`); `ieee_special` covers NaN and the
infinities, `ieee_compare` the comparisons.
-/

set_option autoImplicit false

namespace MiniOpt.F64

open MiniOpt.Spec

theorem pow2_real (k : Int) : ((pow2 k : ℚ) : ℝ) = (2 : ℝ) ^ k := by rw [pow2_eq]; push_cast; rfl

theorem two_zpow_pos (k : Int) : 0 < (2 : ℝ) ^ k := by positivity

theorem two_zpow_add (a b : Int) : (2 : ℝ) ^ (a + b) = (2 : ℝ) ^ a * (2 : ℝ) ^ b := zpow_add₀ (by norm_num) a b

theorem two_zpow_mono {a b : Int} (h : a ≤ b) : (2 : ℝ) ^ a ≤ (2 : ℝ) ^ b := zpow_le_zpow_right₀ (by norm_num) h

theorem two_zpow_nat (n : Nat) : (2 : ℝ) ^ ((n : Nat) : Int) = ((2 ^ n : Nat) : ℝ) := by push_cast; exact zpow_natCast 2 n

theorem two_zpow_53 : (2 : ℝ) ^ (53 : Int) = 2 ^ 53 := by norm_num

theorem overflow_eq : overflowBound = (2 : ℝ) ^ (1024 : Int) - (2 : ℝ) ^ (970 : Int) := by
  unfold overflowBound
  rw [mul_sub, show (1024 : Int) = 1023 + 1 by norm_num, two_zpow_add, show (970 : Int) = 1023 + (1 - 53) + (-1) by norm_num,
    two_zpow_add, two_zpow_add]
  norm_num
  ring

/-- The magnitudes of the model are the magnitudes of the doubles. -/
theorem isMag_double (m : Mag) : IsDouble ((m.1 : ℚ) : ℝ) := by
  obtain ⟨⟨k, e, hk, he, hq⟩, hlt⟩ := m.2
  have h0 : 0 ≤ m.1 := mag_nonneg m
  have habs : |((m.1 : ℚ) : ℝ)| = ((m.1 : ℚ) : ℝ) := abs_of_nonneg (by exact_mod_cast h0)
  by_cases h : e ≤ 971
  · refine ⟨k, e, hk, he, h, ?_⟩
    rw [habs, hq]; push_cast; rw [pow2_real]
  · obtain ⟨j, hj⟩ := Int.eq_ofNat_of_zero_le (show 0 ≤ e - 971 by omega)
    have hq' : m.1 = ((k * 2 ^ j : Nat) : ℚ) * pow2 971 := by
      rw [hq, show e = (j : Int) + 971 by omega, pow2_add, pow2_nat]; push_cast; ring
    refine ⟨k * 2 ^ j, 971, ?_, by norm_num, Int.le_refl _, ?_⟩
    · rw [hq', show (1024 : Int) = ((53 : Nat) : Int) + 971 by norm_num, pow2_add, pow2_nat] at hlt
      have := lt_of_mul_lt_mul_right hlt (pow2_pos 971).le
      exact_mod_cast this
    · rw [habs, hq']; push_cast; rw [pow2_real]

theorem isDouble_neg {v : ℝ} (h : IsDouble v) : IsDouble (-v) := by
  obtain ⟨k, e, hk, he, he', h⟩ := h
  exact ⟨k, e, hk, he, he', by rw [abs_neg, h]⟩

theorem isDouble_realOf (s : Bool) (m : Mag) : IsDouble (realOf s m) := by
  unfold realOf
  split_ifs
  · exact isDouble_neg (isMag_double m)
  · exact isMag_double m

/-- On the grid of the last place, the nearest multiple is the nearest double, and a tie is a tie between multiples. -/
theorem grid_nearest {x : ℝ} (hx : 0 < x) {u n : Int} (hu : u = -1074 ∨ (2 : ℝ) ^ (52 + u) ≤ x)
    (hn : |(n : ℝ) - x / (2 : ℝ) ^ u| ≤ 1 / 2) {v : ℝ} (hv : IsDouble v) :
    |(n : ℝ) * (2 : ℝ) ^ u - x| ≤ |v - x| ∧
    (v ≠ n * (2 : ℝ) ^ u → |v - x| = |(n : ℝ) * (2 : ℝ) ^ u - x| → |(n : ℝ) - x / (2 : ℝ) ^ u| = 1 / 2) := by
  have hup := two_zpow_pos u
  -- distances in units of the last place
  have hscale : ∀ w : ℝ, |w * (2 : ℝ) ^ u - x| = |w - x / (2 : ℝ) ^ u| * (2 : ℝ) ^ u := by
    intro w
    rw [← abs_of_pos hup, ← abs_mul, sub_mul, abs_of_pos hup, div_mul_cancel₀ _ hup.ne']
  -- multiples of the last place
  have hgrid : ∀ k : Int, |(n : ℝ) * (2 : ℝ) ^ u - x| ≤ |(k : ℝ) * (2 : ℝ) ^ u - x| ∧
      (k ≠ n → |(k : ℝ) * (2 : ℝ) ^ u - x| = |(n : ℝ) * (2 : ℝ) ^ u - x| → |(n : ℝ) - x / (2 : ℝ) ^ u| = 1 / 2) := by
    intro k
    rw [hscale, hscale]
    rcases eq_or_ne k n with rfl | hkn
    · exact ⟨le_rfl, fun h => absurd rfl h⟩
    have hge : (1 : ℝ) ≤ |(k : ℝ) - n| := by
      have h1 : 1 ≤ |k - n| := Int.one_le_abs (sub_ne_zero.mpr hkn)
      have h2 : ((1 : Int) : ℝ) ≤ ((|k - n| : Int) : ℝ) := by exact_mod_cast h1
      rw [Int.cast_abs] at h2
      push_cast at h2
      exact h2
    have htri : |(k : ℝ) - n| ≤ |(k : ℝ) - x / (2 : ℝ) ^ u| + |(n : ℝ) - x / (2 : ℝ) ^ u| := by
      have := abs_sub_le (k : ℝ) (x / (2 : ℝ) ^ u) n
      rwa [abs_sub_comm (x / (2 : ℝ) ^ u) (n : ℝ)] at this
    refine ⟨mul_le_mul_of_nonneg_right (by linarith) hup.le, fun _ h => ?_⟩
    have := mul_right_cancel₀ hup.ne' h
    linarith
  have hzero := hgrid 0
  rw [Int.cast_zero, zero_mul, zero_sub, abs_neg, abs_of_pos hx] at hzero
  rcases le_or_gt v 0 with hneg | hpos
  · -- not positive: zero is at least as near
    have hd : |v - x| = x - v := by rw [abs_of_nonpos (by linarith)]; ring
    rw [hd]
    refine ⟨by linarith [hzero.1], fun hne he => ?_⟩
    have hv0 : v = 0 := by linarith [hzero.1]
    subst hv0
    refine hzero.2 (fun h => hne ?_) (by rw [← he]; ring)
    rw [← h]; simp
  · obtain ⟨m, e, hm, he, -, hval⟩ := hv
    rw [abs_of_pos hpos] at hval
    by_cases hue : u ≤ e
    · -- a multiple of the last place
      obtain ⟨j, hj⟩ := Int.eq_ofNat_of_zero_le (show 0 ≤ e - u by omega)
      have hv' : v = ((m * 2 ^ j : Int) : ℝ) * (2 : ℝ) ^ u := by
        rw [hval, show e = (j : Int) + u by omega, two_zpow_add, two_zpow_nat]; push_cast; ring
      have := hgrid (m * 2 ^ j)
      rw [← hv'] at this
      refine ⟨this.1, fun hne heq => this.2 (fun h => hne ?_) heq⟩
      rw [hv', h]
    · -- below the binade: the power of two below `x` is strictly nearer
      have hx2 : (2 : ℝ) ^ (52 + u) ≤ x := hu.resolve_left (by omega)
      have hlt : v < (2 : ℝ) ^ (52 + u) := by
        have h1 : v < (2 : ℝ) ^ (53 + e) := by
          rw [hval, two_zpow_add, two_zpow_53]
          exact mul_lt_mul_of_pos_right (by exact_mod_cast hm) (two_zpow_pos e)
        exact h1.trans_le (two_zpow_mono (by omega))
      have hp := hgrid (2 ^ 52)
      have hpe : (((2 ^ 52 : Int) : Int) : ℝ) * (2 : ℝ) ^ u = (2 : ℝ) ^ (52 + u) := by
        rw [two_zpow_add]; push_cast; norm_num
      rw [hpe] at hp
      have hd : |v - x| = x - v := by rw [abs_of_neg (by linarith)]; ring
      have hd2 : |(2 : ℝ) ^ (52 + u) - x| = x - (2 : ℝ) ^ (52 + u) := by rw [abs_of_nonpos (by linarith)]; ring
      rw [hd2] at hp
      rw [hd]
      exact ⟨by linarith [hp.1], fun _ h => by linarith [hp.1]⟩

/-- Half an integer away, the nearest integer chosen is even. -/
theorem rne_even {q : ℚ} (h : |(rne q : ℚ) - q| = 1 / 2) : Even (rne q) := by
  have h1 := Int.floor_le q
  have h2 := Int.lt_floor_add_one q
  unfold rne at h ⊢
  have hf : q.floor = ⌊q⌋ := rfl
  rw [hf] at h ⊢
  simp only at h ⊢
  split_ifs at h ⊢ with ha hb hc
  · exfalso
    rw [abs_sub_comm, abs_of_nonneg (by linarith)] at h
    linarith
  · exfalso
    push_cast at h
    rw [abs_of_nonneg (by linarith)] at h
    linarith
  · exact Int.even_iff.mpr hc
  · exact Int.even_add_one.mpr (fun he => hc (Int.even_iff.mp he))

/-- A rounded magnitude that is an even multiple of its last place has an even last digit. -/
theorem even_double {x : ℝ} (hx : 0 < x) {u n : Int} (hu0 : -1074 ≤ u) (hu : u = -1074 ∨ (2 : ℝ) ^ (52 + u) ≤ x)
    (htop : x ≤ (2 : ℝ) ^ (53 + u)) (hn : |(n : ℝ) - x / (2 : ℝ) ^ u| ≤ 1 / 2) (he : Even n) : EvenDouble (n * (2 : ℝ) ^ u) := by
  have hup := two_zpow_pos u
  have habs := abs_le.mp hn
  have hdiv : 0 < x / (2 : ℝ) ^ u := div_pos hx hup
  have hn0 : 0 ≤ n := by
    by_contra hc
    have : (n : ℝ) ≤ -1 := by exact_mod_cast (show n ≤ -1 by omega)
    linarith
  have hle : n ≤ 2 ^ 53 := by
    have h1 : x / (2 : ℝ) ^ u ≤ 2 ^ 53 := by
      rw [div_le_iff₀ hup]
      rw [two_zpow_add, two_zpow_53] at htop
      exact htop
    have h2 : (n : ℝ) < 2 ^ 53 + 1 := by linarith
    have h3 : (n : ℝ) < ((2 ^ 53 + 1 : Int) : ℝ) := by push_cast; norm_num at h2 ⊢; exact h2
    have := Int.cast_lt.mp h3
    omega
  have hge : 2 ^ 52 ≤ n ∨ u = -1074 := by
    rcases hu with hu | hu
    · exact Or.inr hu
    · refine Or.inl ?_
      have h1 : (2 : ℝ) ^ 52 ≤ x / (2 : ℝ) ^ u := by
        rw [le_div_iff₀ hup]
        rw [two_zpow_add] at hu
        have : (2 : ℝ) ^ (52 : Int) = 2 ^ 52 := by norm_num
        rwa [this] at hu
      have h2 : ((2 ^ 52 - 1 : Int) : ℝ) < n := by push_cast; linarith
      have := Int.cast_lt.mp h2
      omega
  obtain ⟨k, rfl⟩ := Int.eq_ofNat_of_zero_le hn0
  have hval : |((k : Int) : ℝ) * (2 : ℝ) ^ u| = (k : ℝ) * (2 : ℝ) ^ u := by
    rw [abs_of_nonneg (by positivity)]; push_cast; rfl
  rcases hle.lt_or_eq with hlt | heq
  · refine ⟨k, u, by omega, hu0, by omega, by exact_mod_cast he, hval⟩
  · refine ⟨2 ^ 52, u + 1, by norm_num, by omega, Or.inl (Nat.le_refl _), ⟨2 ^ 51, by norm_num⟩, ?_⟩
    rw [hval, two_zpow_add]
    have : (k : ℝ) = 2 ^ 53 := by exact_mod_cast heq
    rw [this]
    push_cast
    norm_num
    ring

theorem ulp_facts {q : ℚ} (h : 0 < q) : -1074 ≤ ulpExp q ∧ (ulpExp q = -1074 ∨ (2 : ℝ) ^ (52 + ulpExp q) ≤ (q : ℝ)) ∧
    (q : ℝ) ≤ (2 : ℝ) ^ (53 + ulpExp q) := by
  have hs := ilog2_spec h
  have h1 : (2 : ℝ) ^ ilog2 q ≤ (q : ℝ) := by rw [← pow2_real]; exact_mod_cast hs.1
  have h2 : (q : ℝ) ≤ (2 : ℝ) ^ (ilog2 q + 1) := by rw [← pow2_real]; exact_mod_cast hs.2.le
  refine ⟨le_max_right _ _, ?_, h2.trans (two_zpow_mono (by unfold ulpExp; omega))⟩
  by_cases hc : ulpExp q = -1074
  · exact Or.inl hc
  · refine Or.inr ?_
    have : 52 + ulpExp q = ilog2 q := by unfold ulpExp at hc ⊢; omega
    rw [this]
    exact h1

theorem roundMag_near {q : ℚ} : |roundMag q - q| ≤ 1 / 2 * pow2 (ulpExp q) := by
  by_cases h0 : q = 0
  · subst h0
    rw [roundMag_zero]; simp only [sub_zero, abs_zero]
    have := pow2_pos (ulpExp 0); linarith
  have hr : roundMag q = rne (q / pow2 (ulpExp q)) * pow2 (ulpExp q) := if_neg h0
  have hu := pow2_pos (ulpExp q)
  rw [hr]
  have := rne_err (q / pow2 (ulpExp q))
  calc |(rne (q / pow2 (ulpExp q)) : ℚ) * pow2 (ulpExp q) - q|
      = |((rne (q / pow2 (ulpExp q)) : ℚ) - q / pow2 (ulpExp q)) * pow2 (ulpExp q)| := by
        rw [sub_mul, div_mul_cancel₀ _ hu.ne']
    _ = |(rne (q / pow2 (ulpExp q)) : ℚ) - q / pow2 (ulpExp q)| * pow2 (ulpExp q) := by rw [abs_mul, abs_of_pos hu]
    _ ≤ _ := mul_le_mul_of_nonneg_right this hu.le

/-- The rational overflow bound. -/
def overflowRat : ℚ := pow2 1024 - pow2 970

theorem overflow_rat : ((overflowRat : ℚ) : ℝ) = overflowBound := by
  unfold overflowRat
  rw [overflow_eq]
  push_cast
  rw [pow2_real, pow2_real]

set_option exponentiation.threshold 2000 in
theorem roundMag_overflow : roundMag overflowRat = pow2 1024 := by decide +kernel

/-- Exactly the magnitudes from the overflow bound on are rounded to infinity. -/
theorem overflow_iff {q : ℚ} (h : 0 ≤ q) : roundMag q < pow2 1024 ↔ q < overflowRat := by
  constructor
  · intro hlt
    by_contra hc
    have h0 : 0 ≤ overflowRat := by
      unfold overflowRat; exact sub_nonneg.mpr (pow2_mono (by norm_num))
    have := roundMag_mono h0 (not_lt.mp hc)
    rw [roundMag_overflow] at this
    linarith
  · intro hlt
    rcases h.eq_or_lt with rfl | hpos
    · rw [roundMag_zero]; exact pow2_pos _
    have hq : q < pow2 1024 := by
      unfold overflowRat at hlt
      linarith [pow2_pos 970]
    have hl : ilog2 q < 1024 := pow2_lt_iff.mp ((ilog2_spec hpos).1.trans_lt hq)
    have hu : pow2 (ulpExp q) ≤ pow2 971 := pow2_mono (by unfold ulpExp; omega)
    have h971 : pow2 971 = 2 * pow2 970 := by
      rw [show (971 : Int) = 1 + 970 by norm_num, pow2_add, show pow2 1 = 2 by decide +kernel]
    have := (abs_le.mp (roundMag_near (q := q))).2
    unfold overflowRat at hlt
    linarith

/-- `mk` rounds a positive magnitude as the standard says. -/
theorem mk_rounded {q : ℚ} (hq : 0 < q) (s : Bool) : IsRounded (if s then -(q : ℝ) else (q : ℝ)) (mk s q) := by
  have hqr : 0 < (q : ℝ) := by exact_mod_cast hq
  set x : ℝ := if s then -(q : ℝ) else (q : ℝ) with hx
  have habs : |x| = (q : ℝ) := by
    rw [hx]; split_ifs
    · rw [abs_neg, abs_of_pos hqr]
    · exact abs_of_pos hqr
  have hsign : s = true ↔ x < 0 := by
    rw [hx]; cases s
    · simp only [Bool.false_eq_true, if_false, false_iff, not_lt]; exact hqr.le
    · simp only [if_true, true_iff]; linarith
  unfold mk
  split_ifs with h
  · have hlt := (overflow_iff hq.le).mp h.2
    obtain ⟨hu0, hu, htop⟩ := ulp_facts hq
    set n := rne (q / pow2 (ulpExp q)) with hn
    have herr : |(n : ℝ) - (q : ℝ) / (2 : ℝ) ^ ulpExp q| ≤ 1 / 2 := by
      have := rne_err (q / pow2 (ulpExp q))
      rw [← hn] at this
      have h2 : ((|(n : ℚ) - q / pow2 (ulpExp q)| : ℚ) : ℝ) ≤ ((1 / 2 : ℚ) : ℝ) := by exact_mod_cast this
      push_cast at h2
      rwa [pow2_real] at h2
    have hm : ((roundMag q : ℚ) : ℝ) = n * (2 : ℝ) ^ ulpExp q := by
      rw [roundMag_pos_eq hq, ← hn]; push_cast; rw [pow2_real]
    have hev : |(n : ℝ) - (q : ℝ) / (2 : ℝ) ^ ulpExp q| = 1 / 2 → Even n := by
      intro he
      apply rne_even
      rw [← hn]
      have h2 : ((|(n : ℚ) - q / pow2 (ulpExp q)| : ℚ) : ℝ) = ((1 / 2 : ℚ) : ℝ) := by
        push_cast; rw [pow2_real, he]
      exact_mod_cast h2
    have hval : realOf s ⟨roundMag q, roundMag_rep h.1, h.2⟩ = if s then -((n : ℝ) * (2 : ℝ) ^ ulpExp q) else n * (2 : ℝ) ^ ulpExp q := by
      unfold realOf; simp only [hm]
    have hflip : ∀ v : ℝ, |v - x| = |(if s then -v else v) - (q : ℝ)| := by
      intro v
      rw [hx]
      split_ifs
      · rw [← abs_neg]; congr 1; ring
      · rfl
    have hdf : ∀ v : ℝ, IsDouble v → IsDouble (if s then -v else v) := by
      intro v hv
      split_ifs
      · exact isDouble_neg hv
      · exact hv
    have hself : |realOf s ⟨roundMag q, roundMag_rep h.1, h.2⟩ - x| = |(n : ℝ) * (2 : ℝ) ^ ulpExp q - (q : ℝ)| := by
      rw [hflip, hval]
      cases s <;> simp
    refine ⟨?_, isDouble_realOf _ _, ?_, ?_, hsign.mpr, ?_⟩
    · rw [habs, ← overflow_rat]; exact_mod_cast hlt
    · intro v hv
      rw [hself, hflip v]
      exact (grid_nearest hqr hu herr (hdf v hv)).1
    · intro v hv hne heq
      rw [hself, hflip v] at heq
      have hne' : (if s then -v else v) ≠ (n : ℝ) * (2 : ℝ) ^ ulpExp q := by
        intro hc
        apply hne
        rw [hval, ← hc]
        cases s <;> simp
      have := even_double hqr hu0 hu htop herr (hev ((grid_nearest hqr hu herr (hdf v hv)).2 hne' heq))
      rw [hval]
      obtain ⟨k, e, h1, h2, h3, h4, h5⟩ := this
      refine ⟨k, e, h1, h2, h3, h4, ?_⟩
      rw [← h5]
      split_ifs
      · exact abs_neg _
      · rfl
    · intro hx0
      cases s
      · rfl
      · have := hsign.mp rfl; linarith
  · refine ⟨?_, hsign⟩
    rw [habs, ← overflow_rat]
    have : ¬ q < overflowRat := fun hc => h ⟨hq.le, (overflow_iff hq.le).mpr hc⟩
    exact_mod_cast not_lt.mp this

theorem zero_rounded (s : Bool) : IsRounded 0 (zero s) := by
  have hz : realOf s ⟨0, isMag_zero⟩ = 0 := by unfold realOf; simp
  refine ⟨?_, isDouble_realOf _ _, ?_, ?_, fun h => absurd h (lt_irrefl _), fun h => absurd h (lt_irrefl _)⟩
  · rw [abs_zero, overflow_eq]
    exact sub_pos.mpr (zpow_lt_zpow_right₀ (by norm_num) (by norm_num))
  · intro v _
    rw [hz, sub_zero, abs_zero]; exact abs_nonneg _
  · intro v _ hne h
    rw [hz] at hne h
    rw [sub_zero, sub_zero, abs_zero] at h
    exact absurd (abs_eq_zero.mp h) hne

/-- Rounding of a rational number (decimal literals, sums). -/
theorem round_rounded (nz : Bool) (q : ℚ) : IsRounded (q : ℝ) (round nz q) := by
  unfold round
  split_ifs with h
  · subst h; rw [Rat.cast_zero]; exact zero_rounded nz
  · have := mk_rounded (abs_pos.mpr h) (decide (q < 0))
    have hx : (if decide (q < 0) = true then -((|q| : ℚ) : ℝ) else ((|q| : ℚ) : ℝ)) = (q : ℝ) := by
      by_cases hc : q < 0
      · rw [if_pos (by simpa using hc), abs_of_neg hc]; push_cast; ring
      · rw [if_neg (by simpa using hc), abs_of_nonneg (not_lt.mp hc)]
    rw [hx] at this
    exact this

theorem value_real (s : Bool) (m : Mag) : ((value s m : ℚ) : ℝ) = realOf s m := by
  unfold value realOf; split_ifs <;> push_cast <;> rfl

/-- **Addition** of finite doubles: the exact sum, rounded; an exact zero is `+0` unless both terms have the sign bit set. -/
theorem ieee_add (s t : Bool) (a b : Mag) : IsRounded (realOf s a + realOf t b) (add (.fin s a) (.fin t b)) ∧
    (realOf s a + realOf t b = 0 → add (.fin s a) (.fin t b) = zero (s && t)) := by
  have he : realOf s a + realOf t b = ((value s a + value t b : ℚ) : ℝ) := by
    push_cast; rw [value_real, value_real]
  rw [he]
  refine ⟨round_rounded _ _, fun h => ?_⟩
  have h0 : value s a + value t b = 0 := by exact_mod_cast h
  show round (s && t) (value s a + value t b) = _
  rw [h0]
  exact if_pos rfl

/-- **Subtraction** `x - y` is the sum of `x` and `-y`. -/
theorem ieee_sub (s t : Bool) (a b : Mag) :
    IsRounded (realOf s a - realOf t b) (add (.fin s a) (neg (.fin t b))) := by
  have := (ieee_add s (!t) a b).1
  have he : realOf (!t) b = -realOf t b := by cases t <;> simp [realOf]
  rw [he, ← sub_eq_add_neg] at this
  exact this

theorem mk_zero (s : Bool) : mk s 0 = zero s := by
  have := mk_mag s ⟨0, isMag_zero⟩
  exact this

theorem signed_mul (s t : Bool) (a b : ℝ) :
    (if s then -a else a) * (if t then -b else b) = if (s != t) then -(a * b) else a * b := by
  cases s <;> cases t <;> simp

theorem signed_div (s t : Bool) (a b : ℝ) :
    (if s then -a else a) / (if t then -b else b) = if (s != t) then -(a / b) else a / b := by
  cases s <;> cases t <;> simp [neg_div, div_neg]

theorem mk_signed (s : Bool) {q : ℚ} (hq : 0 ≤ q) : IsRounded (if s then -(q : ℝ) else (q : ℝ)) (mk s q) ∧
    (q = 0 → mk s q = zero s) := by
  rcases hq.eq_or_lt with h | h
  · rw [← h, mk_zero]
    refine ⟨?_, fun _ => rfl⟩
    simp only [Rat.cast_zero, neg_zero, ite_self]
    exact zero_rounded s
  · exact ⟨mk_rounded h s, fun h' => absurd h' h.ne'⟩

/-- **Multiplication**: the exact product, rounded; a zero has the product of the signs. -/
theorem ieee_mul (s t : Bool) (a b : Mag) : IsRounded (realOf s a * realOf t b) (mul (.fin s a) (.fin t b)) ∧
    (realOf s a * realOf t b = 0 → mul (.fin s a) (.fin t b) = zero (s != t)) := by
  have he : realOf s a * realOf t b = if (s != t) then -((a.1 * b.1 : ℚ) : ℝ) else ((a.1 * b.1 : ℚ) : ℝ) := by
    unfold realOf; rw [signed_mul]; push_cast; rfl
  have := mk_signed (s != t) (mul_nonneg (mag_nonneg a) (mag_nonneg b))
  rw [he]
  refine ⟨this.1, fun h => this.2 ?_⟩
  split_ifs at h
  · exact_mod_cast neg_eq_zero.mp h
  · exact_mod_cast h

/-- **Division** by a nonzero double: the exact quotient, rounded; a zero has the product of the signs. -/
theorem ieee_div (s t : Bool) (a b : Mag) (hb : realOf t b ≠ 0) :
    IsRounded (realOf s a / realOf t b) (div (.fin s a) (.fin t b)) ∧
    (realOf s a = 0 → div (.fin s a) (.fin t b) = zero (s != t)) := by
  have hb' : b.1 ≠ 0 := by
    intro h
    apply hb
    unfold realOf; rw [h]; simp
  have he : realOf s a / realOf t b = if (s != t) then -((a.1 / b.1 : ℚ) : ℝ) else ((a.1 / b.1 : ℚ) : ℝ) := by
    unfold realOf; rw [signed_div]; push_cast; rfl
  have := mk_signed (s != t) (div_nonneg (mag_nonneg a) (mag_nonneg b))
  have hd : div (.fin s a) (.fin t b) = mk (s != t) (a.1 / b.1) := if_neg hb'
  rw [he, hd]
  refine ⟨this.1, fun h => this.2 ?_⟩
  have ha : a.1 = 0 := by
    unfold realOf at h
    split_ifs at h
    · exact_mod_cast neg_eq_zero.mp h
    · exact_mod_cast h
  rw [ha, zero_div]

/-! ### Square roots -/

/-- What `sqrtMag` computes: the integer root of `q * 4 ^ 600`, exact or with a sticky bit. -/
theorem sqrt_parts (m : Mag) (hpos : 0 < m.1) : ∃ n : Nat, (n : ℚ) = m.1 * ((4 ^ 600 : Nat) : ℚ) ∧ 2 ^ 126 ≤ n ∧
    sqrtMag m.1 = ((Nat.sqrt n : ℚ) + if Nat.sqrt n * Nat.sqrt n = n then 0 else 1 / 2) / ((2 ^ 600 : Nat) : ℚ) := by
  obtain ⟨⟨k, e, hk, he, hq⟩, -⟩ := m.2
  obtain ⟨j, hj⟩ := Int.eq_ofNat_of_zero_le (show 0 ≤ e + 1200 by omega)
  have h4 : ((4 ^ 600 : Nat) : ℚ) = pow2 1200 := by
    rw [show (4 : Nat) ^ 600 = 2 ^ 1200 by rw [show (4 : Nat) = 2 ^ 2 by norm_num, ← pow_mul],
      show (1200 : Int) = ((1200 : Nat) : Int) from rfl, pow2_nat]
  have hn : ((k * 2 ^ j : Nat) : ℚ) = m.1 * ((4 ^ 600 : Nat) : ℚ) := by
    rw [h4, hq, mul_assoc, ← pow2_add, hj]
    rw [pow2_nat]
    push_cast; rfl
  have hk1 : 1 ≤ k := by
    rcases Nat.eq_zero_or_pos k with h | h
    · rw [hq, h] at hpos; simp at hpos
    · exact h
  have hj126 : 126 ≤ j := by
    have : (j : Int) = e + 1200 := hj.symm
    omega
  refine ⟨k * 2 ^ j, hn, ?_, ?_⟩
  · calc 2 ^ 126 ≤ 2 ^ j := Nat.pow_le_pow_right (by norm_num) hj126
      _ = 1 * 2 ^ j := (one_mul _).symm
      _ ≤ k * 2 ^ j := Nat.mul_le_mul_right _ hk1
  · unfold sqrtMag
    rw [← hn]
    have hf : (((k * 2 ^ j : Nat) : ℚ)).floor.toNat = k * 2 ^ j := by
      have : (((k * 2 ^ j : Nat) : ℚ)).floor = ((k * 2 ^ j : Nat) : Int) :=
        (show _ = ⌊((k * 2 ^ j : Nat) : ℚ)⌋ from rfl).trans (Int.floor_natCast _)
      rw [this, Int.toNat_natCast]
    rw [hf]

theorem small_overflow : (2 : ℝ) ^ (512 : Int) + (2 : ℝ) ^ (512 : Int) < overflowBound := by
  rw [overflow_eq]
  have h5 : (2 : ℝ) ^ (1024 : Int) = 2 ^ (54 : Nat) * (2 : ℝ) ^ (970 : Int) := by
    rw [show (1024 : Int) = ((54 : Nat) : Int) + 970 by norm_num, two_zpow_add, zpow_natCast]
  have h6 : (2 : ℝ) ^ (512 : Int) ≤ (2 : ℝ) ^ (970 : Int) := two_zpow_mono (by norm_num)
  have h7 := two_zpow_pos 970
  rw [h5]
  generalize (2 : ℝ) ^ (970 : Int) = y at *
  generalize (2 : ℝ) ^ (512 : Int) = z at *
  have h8 : (4 : ℝ) * y ≤ 2 ^ (54 : Nat) * y := mul_le_mul_of_nonneg_right (by norm_num) h7.le
  linarith only [h6, h7, h8]

set_option maxHeartbeats 1000000 in
/-- **Square root** of a positive double: the exact root, rounded to nearest. -/
theorem ieee_sqrt (m : Mag) (hpos : 0 < m.1) : IsRounded (Real.sqrt (realOf false m)) (sqrt (.fin false m)) := by
  obtain ⟨n, hn, hbig, hsq⟩ := sqrt_parts m hpos
  have hres : sqrt (.fin false m) = mk false (sqrtMag m.1) := by
    show (if m.1 = 0 then _ else if false = true then _ else _) = _
    rw [if_neg hpos.ne', if_neg (by decide)]
  have hreal : realOf false m = ((m.1 : ℚ) : ℝ) := by unfold realOf; simp
  set S : ℝ := (2 : ℝ) ^ (600 : Int) with hS
  have hSpos : 0 < S := two_zpow_pos 600
  have hSn : ((2 ^ 600 : Nat) : ℝ) = S := by
    rw [hS, show (600 : Int) = ((600 : Nat) : Int) from rfl, two_zpow_nat]
  have hnr : (n : ℝ) = ((m.1 : ℚ) : ℝ) * (S * S) := by
    have h1 : ((n : ℚ) : ℝ) = ((m.1 * ((4 ^ 600 : Nat) : ℚ) : ℚ) : ℝ) := by rw [hn]
    rw [Rat.cast_natCast, Rat.cast_mul, Rat.cast_natCast] at h1
    rw [h1, ← hSn, ← Nat.cast_mul, show (4 : Nat) ^ 600 = 2 ^ 600 * 2 ^ 600 by
      rw [show (4 : Nat) = 2 * 2 by norm_num, mul_pow]]
  set x := Real.sqrt (realOf false m) with hxdef
  have hmr : 0 < ((m.1 : ℚ) : ℝ) := by exact_mod_cast hpos
  have hx0 : 0 < x := by rw [hxdef, hreal]; exact Real.sqrt_pos.mpr hmr
  have hxx : x * x = ((m.1 : ℚ) : ℝ) := by rw [hxdef, hreal]; exact Real.mul_self_sqrt hmr.le
  have hxS : (x * S) * (x * S) = n := by rw [hnr, ← hxx]; ring
  set r := Nat.sqrt n with hr
  clear_value S x
  have hr1 : (r : ℝ) * r ≤ n := by exact_mod_cast Nat.sqrt_le n
  have hr2 : (n : ℝ) < (r + 1) * (r + 1) := by exact_mod_cast Nat.lt_succ_sqrt n
  have hlow : (r : ℝ) ≤ x * S := by
    by_contra hc
    have hc := not_le.mp hc
    have : (x * S) * (x * S) < r * r := mul_self_lt_mul_self (mul_pos hx0 hSpos).le hc
    linarith
  have hhigh : x * S < r + 1 := by
    by_contra hc
    have hc := not_lt.mp hc
    have : ((r : ℝ) + 1) * (r + 1) ≤ (x * S) * (x * S) := mul_self_le_mul_self (by positivity) hc
    linarith
  have hm1 : ((m.1 : ℚ) : ℝ) < (2 : ℝ) ^ (1024 : Int) := by rw [← pow2_real]; exact_mod_cast m.2.2
  have hx512 : x < (2 : ℝ) ^ (512 : Int) := by
    by_contra hc
    have h2 := mul_self_le_mul_self (two_zpow_pos 512).le (not_lt.mp hc)
    rw [hxx, ← two_zpow_add, show (512 + 512 : Int) = 1024 by norm_num] at h2
    exact absurd hm1 (not_lt.mpr h2)
  have hbig2 : (2 : ℝ) ^ (512 : Int) + (2 : ℝ) ^ (512 : Int) < overflowBound := small_overflow
  have hrbig : 2 ^ 63 ≤ r := by
    rw [hr, Nat.le_sqrt]
    exact _root_.le_trans (by norm_num) hbig
  rw [hres, hsq]
  by_cases hex : r * r = n
  · -- exact
    rw [if_pos hex, add_zero]
    have hxr : x = (((r : ℚ) / ((2 ^ 600 : Nat) : ℚ) : ℚ) : ℝ) := by
      rw [Rat.cast_div, Rat.cast_natCast, Rat.cast_natCast, hSn, eq_div_iff hSpos.ne']
      have h1 : (r : ℝ) * r = n := by exact_mod_cast hex
      have h2 : (x * S) * (x * S) = r * r := by rw [hxS, h1]
      exact (mul_self_inj (mul_pos hx0 hSpos).le (by positivity)).mp h2
    have hpos' : 0 < (r : ℚ) / ((2 ^ 600 : Nat) : ℚ) := by
      apply div_pos
      · have : 0 < r := by omega
        exact_mod_cast this
      · exact_mod_cast Nat.pos_of_ne_zero (by positivity)
    have := mk_rounded hpos' false
    simp only [Bool.false_eq_true, if_false] at this
    rw [hxr]
    exact this
  · -- not exact
    rw [if_neg hex]
    have hlow' : (r : ℝ) < x * S := by
      refine lt_of_le_of_ne hlow (fun he => hex ?_)
      rw [← he] at hxS
      exact_mod_cast hxS
    set a : ℚ := ((r : ℚ) + 1 / 2) / ((2 ^ 600 : Nat) : ℚ) with ha
    have haR : (a : ℝ) = ((r : ℝ) + 1 / 2) / S := by
      rw [ha, Rat.cast_div, Rat.cast_add, Rat.cast_natCast, Rat.cast_natCast, hSn]; push_cast; rfl
    have haS : (a : ℝ) * S = r + 1 / 2 := by rw [haR, div_mul_cancel₀ _ hSpos.ne']
    have hapos : 0 < a := by
      have : 0 < (a : ℝ) := by rw [haR]; positivity
      exact_mod_cast this
    -- exponents
    have hlog := ilog2_spec hapos
    have hl1 : (2 : ℝ) ^ ilog2 a ≤ (a : ℝ) := by rw [← pow2_real]; exact_mod_cast hlog.1
    have hl2 : (a : ℝ) < (2 : ℝ) ^ (ilog2 a + 1) := by rw [← pow2_real]; exact_mod_cast hlog.2
    have hge : -537 ≤ ilog2 a := by
      by_contra hc
      have h1 : (a : ℝ) < (2 : ℝ) ^ (-537 : Int) := hl2.trans_le (two_zpow_mono (by omega))
      have h2 : (a : ℝ) * S < (2 : ℝ) ^ (-537 : Int) * S := mul_lt_mul_of_pos_right h1 hSpos
      rw [haS, hS, ← two_zpow_add, show (-537 + 600 : Int) = ((63 : Nat) : Int) by norm_num, two_zpow_nat] at h2
      have h3 : ((2 ^ 63 : Nat) : ℝ) ≤ r := by exact_mod_cast hrbig
      have h4 := h2.trans_le h3
      linarith only [h4]
    have hu : ulpExp a = ilog2 a - 52 := by unfold ulpExp; omega
    obtain ⟨j, hj⟩ := Int.eq_ofNat_of_zero_le (show 0 ≤ 600 + ulpExp a - 1 by omega)
    obtain ⟨i, hi⟩ := Int.eq_ofNat_of_zero_le (show 0 ≤ 600 + ilog2 a by omega)
    have hup := two_zpow_pos (ulpExp a)
    -- the root has the same exponent
    have hxl : (2 : ℝ) ^ (52 + ulpExp a) ≤ x := by
      have he : 52 + ulpExp a = ilog2 a := by omega
      rw [he]
      have h1 : (2 : ℝ) ^ ilog2 a * S ≤ r + 1 / 2 := by rw [← haS]; exact mul_le_mul_of_nonneg_right hl1 hSpos.le
      have h2 : (2 : ℝ) ^ ilog2 a * S = ((2 ^ i : Nat) : ℝ) := by
        rw [hS, ← two_zpow_add, _root_.add_comm, hi]; exact two_zpow_nat i
      rw [h2] at h1
      have h3 : 2 ^ i ≤ r := by
        by_contra hc
        have : ((r : ℝ) + 1) ≤ ((2 ^ i : Nat) : ℝ) := by exact_mod_cast not_le.mp hc
        linarith
      have h4 : ((2 ^ i : Nat) : ℝ) ≤ r := by exact_mod_cast h3
      rw [← h2] at h4
      exact (lt_of_mul_lt_mul_right (h4.trans_lt hlow') hSpos.le).le
    -- the same multiple of the last place is nearest
    set k := rne (a / pow2 (ulpExp a)) with hk
    have hH : (2 : ℝ) ^ ulpExp a * S = 2 * ((2 ^ j : Nat) : ℝ) := by
      rw [hS, ← two_zpow_add, ← two_zpow_nat, show ((j : Nat) : Int) = 600 + ulpExp a - 1 from hj.symm,
        show ulpExp a + 600 = 1 + (600 + ulpExp a - 1) by ring, two_zpow_add]
      norm_num
    have herr : |(k : ℝ) - (a : ℝ) / (2 : ℝ) ^ ulpExp a| ≤ 1 / 2 := by
      have := rne_err (a / pow2 (ulpExp a))
      rw [← hk] at this
      have h2 : ((|(k : ℚ) - a / pow2 (ulpExp a)| : ℚ) : ℝ) ≤ ((1 / 2 : ℚ) : ℝ) := by exact_mod_cast this
      push_cast at h2
      rwa [pow2_real] at h2
    have herrx : |(k : ℝ) - x / (2 : ℝ) ^ ulpExp a| < 1 / 2 := by
      have hb := abs_le.mp herr
      -- scaled to integers
      have h1 : (a : ℝ) / (2 : ℝ) ^ ulpExp a * (2 * ((2 ^ j : Nat) : ℝ)) = r + 1 / 2 := by
        rw [← hH, ← haS]; field_simp
      have hxs : x / (2 : ℝ) ^ ulpExp a * (2 * ((2 ^ j : Nat) : ℝ)) = x * S := by
        rw [← hH]; field_simp
      have hHp : 0 < ((2 ^ j : Nat) : ℝ) := by positivity
      have hHp2 : (0 : ℝ) < 2 * ((2 ^ j : Nat) : ℝ) := by positivity
      have hA : (k : ℝ) * (2 * ((2 ^ j : Nat) : ℝ)) - ((2 ^ j : Nat) : ℝ) ≤ r + 1 / 2 := by
        have := mul_le_mul_of_nonneg_right (show (k : ℝ) - 1 / 2 ≤ (a : ℝ) / (2 : ℝ) ^ ulpExp a by linarith) hHp2.le
        rw [h1] at this
        nlinarith [this]
      have hB : (r : ℝ) + 1 / 2 ≤ (k : ℝ) * (2 * ((2 ^ j : Nat) : ℝ)) + ((2 ^ j : Nat) : ℝ) := by
        have := mul_le_mul_of_nonneg_right (show (a : ℝ) / (2 : ℝ) ^ ulpExp a ≤ (k : ℝ) + 1 / 2 by linarith) hHp2.le
        rw [h1] at this
        nlinarith [this]
      have hA' : k * (2 * (2 ^ j : Nat)) - (2 ^ j : Nat) ≤ (r : Int) := by
        by_contra hc
        have h2 : (r : Int) + 1 ≤ k * (2 * (2 ^ j : Nat)) - (2 ^ j : Nat) := not_le.mp hc
        have h3 : ((r : ℝ) + 1) ≤ (k : ℝ) * (2 * ((2 ^ j : Nat) : ℝ)) - ((2 ^ j : Nat) : ℝ) := by exact_mod_cast h2
        linarith
      have hB' : (r : Int) + 1 ≤ k * (2 * (2 ^ j : Nat)) + (2 ^ j : Nat) := by
        by_contra hc
        have h2 : k * (2 * (2 ^ j : Nat)) + (2 ^ j : Nat) ≤ (r : Int) := by omega
        have h3 : (k : ℝ) * (2 * ((2 ^ j : Nat) : ℝ)) + ((2 ^ j : Nat) : ℝ) ≤ (r : ℝ) := by exact_mod_cast h2
        linarith
      have hA2 : (k : ℝ) * (2 * ((2 ^ j : Nat) : ℝ)) - ((2 ^ j : Nat) : ℝ) ≤ r := by exact_mod_cast hA'
      have hB2 : (r : ℝ) + 1 ≤ (k : ℝ) * (2 * ((2 ^ j : Nat) : ℝ)) + ((2 ^ j : Nat) : ℝ) := by exact_mod_cast hB'
      rw [abs_lt]
      constructor
      · refine lt_of_mul_lt_mul_right ?_ hHp2.le
        rw [sub_mul, hxs]
        nlinarith [hB2, hhigh]
      · refine lt_of_mul_lt_mul_right ?_ hHp2.le
        rw [sub_mul, hxs]
        nlinarith [hA2, hlow']
    -- no overflow
    have hfin : 0 ≤ a ∧ roundMag a < pow2 1024 := by
      refine ⟨hapos.le, (overflow_iff hapos.le).mpr ?_⟩
      have h2 : (a : ℝ) * S < (x + x) * S := by
        rw [haS, add_mul]
        have : (1 : ℝ) ≤ r := by exact_mod_cast (show 1 ≤ r by omega)
        linarith
      have h3 := lt_of_mul_lt_mul_right h2 hSpos.le
      have h4 : (a : ℝ) < ((overflowRat : ℚ) : ℝ) := by
        rw [overflow_rat]
        generalize (2 : ℝ) ^ (512 : Int) = z at hx512 hbig2
        linarith only [hx512, hbig2, h3]
      exact_mod_cast h4
    have hmk : mk false a = .fin false ⟨roundMag a, roundMag_rep hfin.1, hfin.2⟩ := dif_pos hfin
    have hval : realOf false ⟨roundMag a, roundMag_rep hfin.1, hfin.2⟩ = k * (2 : ℝ) ^ ulpExp a := by
      unfold realOf
      simp only [Bool.false_eq_true, if_false]
      rw [roundMag_pos_eq hapos, ← hk]; push_cast; rw [pow2_real]
    rw [hmk]
    refine ⟨?_, isDouble_realOf _ _, ?_, ?_, fun h => absurd h (not_lt.mpr hx0.le), fun _ => rfl⟩
    · rw [abs_of_pos hx0]
      generalize (2 : ℝ) ^ (512 : Int) = z at hx512 hbig2
      linarith only [hx512, hbig2, hx0]
    · intro v hv
      rw [hval]
      exact (grid_nearest hx0 (Or.inr hxl) herrx.le hv).1
    · intro v hv hne heq
      rw [hval] at hne heq
      exact absurd ((grid_nearest hx0 (Or.inr hxl) herrx.le hv).2 hne heq) herrx.ne

/-- **Square root**, the other arguments: a zero is returned with its sign, negative arguments give NaN. -/
theorem ieee_sqrt_special (s : Bool) (m : Mag) :
    sqrt (zero s) = zero s ∧ (realOf s m < 0 → sqrt (.fin s m) = .nan) := by
  refine ⟨rfl, fun h => ?_⟩
  have hs : s = true := by
    cases s
    · exfalso
      have h0 : 0 ≤ m.1 := mag_nonneg m
      have : 0 ≤ realOf false m := by unfold realOf; simp only [Bool.false_eq_true, if_false]; exact_mod_cast h0
      linarith
    · rfl
  subst hs
  have hm : m.1 ≠ 0 := by
    intro h0
    unfold realOf at h
    rw [h0] at h
    simp at h
  show (if m.1 = 0 then _ else if true = true then _ else _) = _
  rw [if_neg hm, if_pos rfl]

theorem realOf_zero (s : Bool) (m : Mag) : realOf s m = 0 ↔ m.1 = 0 := by
  unfold realOf
  cases s <;> simp

/-- **Special values**: NaN spreads; a sum of infinities of opposite sign, a product of zero and an infinity, a quotient of two zeros
or two infinities are NaN; otherwise infinities, and nonzero numbers divided by a zero, give the infinity with the sign that
belongs to the operands, and a number divided by an infinity gives a zero with that sign. -/
theorem ieee_special (x : F64) (s t : Bool) (a b : Mag) :
    (add .nan x = .nan ∧ add x .nan = .nan ∧ mul .nan x = .nan ∧ mul x .nan = .nan ∧ div .nan x = .nan ∧ div x .nan = .nan) ∧
    (add (.inf s) (.inf s) = .inf s ∧ add (.inf s) (.inf (!s)) = .nan ∧ add (.inf s) (.fin t b) = .inf s ∧
      add (.fin t b) (.inf s) = .inf s) ∧
    (mul (.inf s) (.inf t) = .inf (s != t) ∧
      (realOf t b = 0 → mul (.inf s) (.fin t b) = .nan ∧ mul (.fin t b) (.inf s) = .nan) ∧
      (realOf t b ≠ 0 → mul (.inf s) (.fin t b) = .inf (s != t) ∧ mul (.fin t b) (.inf s) = .inf (t != s))) ∧
    (div (.inf s) (.inf t) = .nan ∧ div (.inf s) (.fin t b) = .inf (s != t) ∧ div (.fin s a) (.inf t) = zero (s != t) ∧
      (realOf t b = 0 → realOf s a = 0 → div (.fin s a) (.fin t b) = .nan) ∧
      (realOf t b = 0 → realOf s a ≠ 0 → div (.fin s a) (.fin t b) = .inf (s != t))) := by
  simp only [ne_eq, realOf_zero]
  refine ⟨⟨rfl, ?_, rfl, ?_, rfl, ?_⟩, ⟨?_, ?_, rfl, rfl⟩, ⟨rfl, fun h => ⟨if_pos h, if_pos h⟩, fun h => ⟨if_neg h, if_neg h⟩⟩,
    rfl, rfl, rfl, fun h h' => ?_, fun h h' => ?_⟩
  · cases x <;> rfl
  · cases x <;> rfl
  · cases x <;> rfl
  · show (if s = s then _ else _) = _; rw [if_pos rfl]
  · show (if s = !s then _ else _) = _; rw [if_neg (by cases s <;> decide)]
  · show (if b.1 = 0 then if a.1 = 0 then _ else _ else _) = _; rw [if_pos h, if_pos h']
  · show (if b.1 = 0 then if a.1 = 0 then _ else _ else _) = _; rw [if_pos h, if_neg h']

/-- The number a double stands for, infinities included. -/
noncomputable def extended : F64 → Option EReal
  | .nan => none
  | .inf s => some (if s then ⊥ else ⊤)
  | .fin s m => some (realOf s m : EReal)

/-- **Comparisons** are those of the extended real numbers, and false if an operand is NaN. So the two zeros are equal. -/
theorem ieee_compare (x y : F64) :
    (lt x y = true ↔ ∃ a b, extended x = some a ∧ extended y = some b ∧ a < b) ∧
    (le x y = true ↔ ∃ a b, extended x = some a ∧ extended y = some b ∧ a ≤ b) ∧
    (eq x y = true ↔ ∃ a b, extended x = some a ∧ extended y = some b ∧ a = b) := by
  have hv : ∀ s m, (realOf s m) = ((value s m : ℚ) : ℝ) := fun s m => (value_real s m).symm
  cases x <;> cases y <;> simp only [extended, lt, le, eq]
  all_goals try simp
  all_goals try (rename_i s t; cases s <;> cases t <;> simp)
  all_goals try (rename_i s t m; cases s <;> simp)
  all_goals try (rename_i s m t; cases t <;> simp)
  all_goals simp [hv, eq_comm]

/-! Ties and overflow, on examples: `2 ^ 53 + 1` is half way between two doubles, and the even one is chosen. -/

example : round false (2 ^ 53 + 1) = round false (2 ^ 53) ∧ round false (2 ^ 53 + 3) = round false (2 ^ 53 + 4) := by
  constructor <;> decide +kernel

set_option exponentiation.threshold 2000 in
example : round false overflowRat = .inf false ∧ round true (overflowRat - 1) ≠ .inf false := by
  constructor <;> decide +kernel

end MiniOpt.F64
