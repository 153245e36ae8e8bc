import Verif.Model.F64

/-!
# Facts about double arithmetic
-/

set_option autoImplicit false

namespace MiniOpt.F64

theorem mag_nonneg (m : Mag) : 0 ≤ m.1 := by
  obtain ⟨⟨k, e, -, -, h⟩, -⟩ := m.2
  rw [h]; exact mul_nonneg (by positivity) (pow2_pos _).le

theorem roundMag_mag (m : Mag) : roundMag m.1 = m.1 := roundMag_id m.2.1

theorem mag_ext {a b : Mag} (h : a.1 = b.1) : a = b := Subtype.ext h

/-! ### Rounding -/

theorem mk_fin {q : ℚ} {s t : Bool} {m : Mag} (h : mk s q = .fin t m) : t = s ∧ 0 ≤ q ∧ m.1 = roundMag q := by
  unfold mk at h
  split_ifs at h with hc
  cases h
  exact ⟨rfl, hc.1, rfl⟩

theorem mk_inf {q : ℚ} {s t : Bool} (hq : 0 ≤ q) (h : mk s q = .inf t) : t = s ∧ pow2 1024 ≤ roundMag q := by
  unfold mk at h
  split_ifs at h with hc
  cases h
  exact ⟨rfl, not_lt.mp fun h => hc ⟨hq, h⟩⟩

theorem mk_ne_nan (s : Bool) (q : ℚ) : mk s q ≠ .nan := by
  unfold mk; split_ifs <;> simp

theorem mk_mag (s : Bool) (m : Mag) : mk s m.1 = .fin s m := by
  have h : 0 ≤ m.1 ∧ roundMag m.1 < pow2 1024 := ⟨mag_nonneg m, by rw [roundMag_mag]; exact m.2.2⟩
  unfold mk
  rw [dif_pos h]
  congr 1
  exact mag_ext (roundMag_mag m)

theorem round_ne_nan (s : Bool) (q : ℚ) : round s q ≠ .nan := by
  unfold round; split_ifs
  · simp [zero]
  · exact mk_ne_nan _ _

/-- Rounding a double gives it back. -/
theorem round_value {s t : Bool} {m : Mag} (h : m.1 ≠ 0 ∨ s = t) : round s (value t m) = .fin t m := by
  have h0 := mag_nonneg m
  by_cases hm : m.1 = 0
  · have hst := h.resolve_left (fun h => h hm)
    have : value t m = 0 := by unfold value; rw [hm]; simp
    rw [round, if_pos this, zero, hst]
    congr 1
    exact mag_ext hm.symm
  · have hpos : 0 < m.1 := lt_of_le_of_ne h0 (Ne.symm hm)
    cases t
    · have hv : value false m = m.1 := rfl
      rw [round, hv, if_neg hm, abs_of_pos hpos, decide_eq_false (not_lt.mpr h0)]
      exact mk_mag _ _
    · have hv : value true m = -m.1 := rfl
      rw [round, hv, if_neg (neg_ne_zero.mpr hm), abs_neg, abs_of_pos hpos, decide_eq_true (by linarith)]
      exact mk_mag _ _

/-! ### Order -/

theorem le_nan_left (x : F64) : le .nan x = false := by cases x <;> rfl
theorem le_nan_right (x : F64) : le x .nan = false := by cases x <;> rfl
theorem lt_nan_left (x : F64) : lt .nan x = false := by cases x <;> rfl
theorem lt_nan_right (x : F64) : lt x .nan = false := by cases x <;> rfl

theorem le_refl {x : F64} (h : x ≠ .nan) : le x x = true := by
  cases x <;> simp_all [le]

theorem le_trans {x y z : F64} (h1 : le x y = true) (h2 : le y z = true) : le x z = true := by
  cases x <;> cases y <;> cases z <;> simp_all [le]
  all_goals first | (exact _root_.le_trans h1 h2) | grind

theorem lt_of_le_of_lt {x y z : F64} (h1 : le x y = true) (h2 : lt y z = true) : lt x z = true := by
  cases x <;> cases y <;> cases z <;> simp_all [le, lt]
  all_goals first | (exact _root_.lt_of_le_of_lt h1 h2) | grind

theorem lt_of_lt_of_le {x y z : F64} (h1 : lt x y = true) (h2 : le y z = true) : lt x z = true := by
  cases x <;> cases y <;> cases z <;> simp_all [le, lt]
  all_goals first | (exact _root_.lt_of_lt_of_le h1 h2) | grind

theorem le_of_lt {x y : F64} (h : lt x y = true) : le x y = true := by
  cases x <;> cases y <;> simp_all [le, lt]
  exact _root_.le_of_lt h

theorem not_lt_iff {x y : F64} (hx : x ≠ .nan) (hy : y ≠ .nan) : lt x y = false ↔ le y x = true := by
  cases x <;> cases y <;> simp_all [le, lt]
  grind

theorem not_le_iff {x y : F64} (hx : x ≠ .nan) (hy : y ≠ .nan) : le x y = false ↔ lt y x = true := by
  cases x <;> cases y <;> simp_all [le, lt]
  grind

theorem le_ne_nan {x y : F64} (h : le x y = true) : x ≠ .nan ∧ y ≠ .nan := by
  constructor
  · rintro rfl; rw [le_nan_left] at h; cases h
  · rintro rfl; rw [le_nan_right] at h; cases h

theorem lt_ne_nan {x y : F64} (h : lt x y = true) : x ≠ .nan ∧ y ≠ .nan := le_ne_nan (le_of_lt h)

/-! ### Monotonicity -/

theorem mk_mono_pos {p q : ℚ} (hp : 0 ≤ p) (h : p ≤ q) : le (mk false p) (mk false q) = true := by
  have hm := roundMag_mono hp h
  cases hx : mk false p with
  | nan => exact absurd hx (mk_ne_nan _ _)
  | inf s =>
    obtain ⟨rfl, h1⟩ := mk_inf hp hx
    cases hy : mk false q with
    | nan => exact absurd hy (mk_ne_nan _ _)
    | inf t => obtain ⟨rfl, h2⟩ := mk_inf (hp.trans h) hy; rfl
    | fin t m =>
      obtain ⟨-, -, h3⟩ := mk_fin hy
      have := m.2.2
      rw [h3] at this
      linarith
  | fin s m =>
    obtain ⟨rfl, -, h1⟩ := mk_fin hx
    cases hy : mk false q with
    | nan => exact absurd hy (mk_ne_nan _ _)
    | inf t => obtain ⟨rfl, h2⟩ := mk_inf (hp.trans h) hy; rfl
    | fin t m' =>
      obtain ⟨rfl, -, h3⟩ := mk_fin hy
      simp only [le, value]
      simp only [Bool.false_eq_true, if_false]
      rw [h1, h3]; exact decide_eq_true hm

theorem mk_neg (q : ℚ) (s : Bool) : mk (!s) q = neg (mk s q) := by
  unfold mk; split_ifs <;> rfl

theorem le_neg {x y : F64} : le (neg x) (neg y) = le y x := by
  cases x with
  | nan => rw [neg, le_nan_left, le_nan_right]
  | inf s => cases y <;> cases s <;> simp [le, neg]
  | fin s m =>
    cases y with
    | nan => rw [show neg .nan = .nan from rfl, le_nan_left, le_nan_right]
    | inf t => cases t <;> simp [le, neg]
    | fin t m' => cases s <;> cases t <;> simp [le, neg, value] <;> constructor <;> intro h <;> linarith

theorem lt_neg {x y : F64} : lt (neg x) (neg y) = lt y x := by
  cases x with
  | nan => rw [neg, lt_nan_left, lt_nan_right]
  | inf s => cases y <;> cases s <;> simp [lt, neg]
  | fin s m =>
    cases y with
    | nan => rw [show neg .nan = .nan from rfl, lt_nan_left, lt_nan_right]
    | inf t => cases t <;> simp [lt, neg]
    | fin t m' => cases s <;> cases t <;> simp [lt, neg, value] <;> constructor <;> intro h <;> linarith

theorem neg_neg (x : F64) : neg (neg x) = x := by cases x <;> simp [neg]

theorem mk_nonneg (q : ℚ) : le (zero false) (mk false q) = true := by
  cases hx : mk false q with
  | nan => exact absurd hx (mk_ne_nan _ _)
  | inf s =>
    have : s = false := by unfold mk at hx; split_ifs at hx; cases hx; rfl
    subst this; rfl
  | fin s m =>
    obtain ⟨rfl, -, h⟩ := mk_fin hx
    simp [zero, le, value, mag_nonneg m]

theorem zero_le_zero (s t : Bool) : le (zero s) (zero t) = true := by
  cases s <;> cases t <;> simp [zero, le, value]

theorem round_mono {p q : ℚ} (s t : Bool) (h : p ≤ q) : le (round s p) (round t q) = true := by
  have neg_case : ∀ {u : ℚ}, u < 0 → ∀ b, round b u = neg (mk false (-u)) := by
    intro u hu b
    rw [round, if_neg hu.ne, decide_eq_true hu, abs_of_neg hu, ← mk_neg]; rfl
  have pos_case : ∀ {u : ℚ}, 0 < u → ∀ b, round b u = mk false u := by
    intro u hu b
    rw [round, if_neg hu.ne', decide_eq_false (not_lt.mpr hu.le), abs_of_pos hu]
  have zneg : ∀ b, zero b = neg (zero (!b)) := by intro b; simp [zero, neg]
  rcases lt_trichotomy p 0 with hp | hp | hp <;> rcases lt_trichotomy q 0 with hq | hq | hq
  · rw [neg_case hp, neg_case hq, le_neg]; exact mk_mono_pos (by linarith) (by linarith)
  · rw [neg_case hp, round, if_pos hq, zneg, le_neg]
    exact le_trans (zero_le_zero _ false) (mk_nonneg _)
  · rw [neg_case hp, pos_case hq]
    refine le_trans (y := zero true) ?_ (le_trans (zero_le_zero _ false) (mk_nonneg _))
    rw [zneg, le_neg]; exact mk_nonneg _
  · linarith
  · rw [round, if_pos hp, round, if_pos hq]; exact zero_le_zero _ _
  · rw [round, if_pos hp, pos_case hq]; exact le_trans (zero_le_zero _ false) (mk_nonneg _)
  · linarith
  · linarith
  · rw [pos_case hp, pos_case hq]; exact mk_mono_pos hp.le h

theorem round_le_fin {q : ℚ} (s t : Bool) {m : Mag} (h : q ≤ value t m) : le (round s q) (.fin t m) = true := by
  have h1 := round_mono s t h
  rwa [round_value (Or.inr rfl)] at h1

theorem fin_le_round {q : ℚ} (s t : Bool) {m : Mag} (h : value t m ≤ q) : le (.fin t m) (round s q) = true := by
  have h1 := round_mono t s h
  rwa [round_value (Or.inr rfl)] at h1

/-- A finite result of rounding. -/
theorem round_le_iff {q : ℚ} {s : Bool} {t : Bool} {m : Mag} (h : le (round s q) (.fin t m) = false) :
    value t m < q := by
  by_contra hc
  rw [round_le_fin s t (not_lt.mp hc)] at h
  cases h

theorem add_mono {x y z : F64} (h : le x y = true) (h1 : add x z ≠ .nan) (h2 : add y z ≠ .nan) :
    le (add x z) (add y z) = true := by
  cases x with
  | nan => rw [le_nan_left] at h; cases h
  | inf s =>
    cases y with
    | nan => rw [le_nan_right] at h; cases h
    | inf t => cases z <;> cases s <;> cases t <;> simp_all [le, add]
               all_goals (rename_i u; cases u <;> simp_all [le])
    | fin t b =>
      have : s = true := h
      subst this
      cases z with
      | nan => exact absurd rfl h1
      | inf u => cases u <;> simp_all [le, add]
      | fin u c =>
        simp only [add]
        cases hr : round (t && u) (value t b + value u c) with
        | nan => exact absurd hr (round_ne_nan _ _)
        | inf v => rfl
        | fin v d => rfl
  | fin s a =>
    cases y with
    | nan => rw [le_nan_right] at h; cases h
    | inf t =>
      have : t = false := by simpa [le] using h
      subst this
      cases z with
      | nan => exact absurd rfl h1
      | inf u => cases u <;> simp_all [le, add]
      | fin u c =>
        simp only [add]
        cases hr : round (s && u) (value s a + value u c) with
        | nan => exact absurd hr (round_ne_nan _ _)
        | inf v => cases v <;> rfl
        | fin v d => rfl
    | fin t b =>
      cases z with
      | nan => exact absurd rfl h1
      | inf u => simp [add, le]
      | fin u c =>
        simp only [add]
        apply round_mono
        have : value s a ≤ value t b := by simpa [le] using h
        linarith

theorem add_comm (x y : F64) : add x y = add y x := by
  cases x <;> cases y <;> simp [add, Bool.and_comm, _root_.add_comm]
  rename_i s t
  cases s <;> cases t <;> rfl

theorem add_zero_le {x : F64} (s : Bool) (h : x ≠ .nan) : le (add x (zero s)) x = true ∧ le x (add x (zero s)) = true := by
  cases x with
  | nan => exact absurd rfl h
  | inf t => cases t <;> simp [add, zero, le]
  | fin t m =>
    have hv : value t m + value s ⟨0, isMag_zero⟩ = value t m := by cases s <;> simp [value]
    simp only [add, zero, hv]
    exact ⟨round_le_fin _ _ _root_.le_rfl, fin_le_round _ _ _root_.le_rfl⟩

/-- Adding something that is not positive does not increase a double. -/
theorem add_nonpos_le {x d : F64} (hd : le d (zero false) = true) (hn : add x d ≠ .nan) : le (add x d) x = true := by
  have hx : x ≠ .nan := by rintro rfl; exact hn (by cases d <;> rfl)
  rw [add_comm] at hn ⊢
  have h0 : add (zero false) x ≠ .nan := by
    rw [add_comm]
    exact (le_ne_nan (add_zero_le false hx).1).1
  have := add_mono hd hn h0
  refine le_trans this ?_
  rw [add_comm]
  exact (add_zero_le false hx).1

/-! ### Signs of products -/

/-- The sign of a product, for operands that are not NaN. -/
theorem mul_nonneg_nonpos {x y : F64} (hx : le (zero false) x = true) (hy : le y (zero false) = true)
    (hn : mul x y ≠ .nan) : le (mul x y) (zero false) = true := by
  have key : ∀ q, le (mk true q) (zero false) = true := by
    intro q
    have h1 := mk_nonneg q
    rw [show (true : Bool) = !false from rfl, mk_neg, show zero false = neg (zero true) from rfl, le_neg]
    exact le_trans (zero_le_zero _ _) h1
  have keyz : ∀ s (p : ℚ), p = 0 → le (mk s p) (zero false) = true := by
    rintro s p rfl
    have : mk s (0 : ℚ) = zero s := mk_mag s ⟨0, isMag_zero⟩
    rw [this]; exact zero_le_zero _ _
  cases x with
  | nan => rw [le_nan_right] at hx; cases hx
  | inf s =>
    have hs : s = false := by simpa [le, zero] using hx
    subst hs
    cases y with
    | nan => rw [le_nan_left] at hy; cases hy
    | inf t =>
      have ht : t = true := by simpa [le, zero] using hy
      subst ht; rfl
    | fin t b =>
      simp only [mul] at hn ⊢
      split_ifs at hn ⊢ with hb
      · exact absurd rfl hn
      · have hpos : 0 < b.1 := lt_of_le_of_ne (mag_nonneg b) (Ne.symm hb)
        have : t = true := by
          cases t
          · simp [le, zero, value] at hy; linarith
          · rfl
        subst this; rfl
  | fin s a =>
    have ha : 0 ≤ value s a := by simpa [le, zero, value] using hx
    cases y with
    | nan => rw [le_nan_left] at hy; cases hy
    | inf t =>
      have ht : t = true := by simpa [le, zero] using hy
      subst ht
      simp only [mul] at hn ⊢
      split_ifs at hn ⊢ with hb
      · exact absurd rfl hn
      · have hpos : 0 < a.1 := lt_of_le_of_ne (mag_nonneg a) (Ne.symm hb)
        have : s = false := by
          cases s
          · rfl
          · simp [value] at ha; linarith
        subst this; rfl
    | fin t b =>
      have hb : value t b ≤ 0 := by simpa [le, zero, value] using hy
      simp only [mul]
      have h1 := mag_nonneg a
      have h2 := mag_nonneg b
      by_cases hz : a.1 * b.1 = 0
      · exact keyz _ _ hz
      · have hs : s = false := by
          cases s
          · rfl
          · simp [value] at ha
            exact absurd (by rw [show a.1 = 0 by linarith, zero_mul]) hz
        have ht : t = true := by
          cases t
          · simp [value] at hb
            exact absurd (by rw [show b.1 = 0 by linarith, mul_zero]) hz
          · rfl
        subst hs; subst ht
        exact key _

end MiniOpt.F64
