import Verif.Lemmas.F64

/-! # More facts about binary64: units, exactness of the sign of a difference, products -/

set_option autoImplicit false

namespace MiniOpt.F64

theorem isMag_one : IsMag 1 := ⟨⟨1, 0, by norm_num, by norm_num, by norm_num [pow2]⟩, by decide +kernel⟩

def oneMag : Mag := ⟨1, isMag_one⟩

theorem round_one : round false 1 = .fin false oneMag := by
  have := round_value (s := false) (t := false) (m := oneMag) (Or.inr rfl)
  exact this

theorem one_mul (x : F64) : mul (.fin false oneMag) x = x := by
  cases x with
  | nan => rfl
  | inf t => cases t <;> simp [mul, oneMag]
  | fin t b => cases t <;> simp only [mul, oneMag, _root_.one_mul] <;> exact mk_mag _ b

theorem neg_one_mul (x : F64) : mul (.fin true oneMag) x = neg x := by
  cases x with
  | nan => rfl
  | inf t => cases t <;> simp [mul, oneMag, neg]
  | fin t b => cases t <;> simp only [mul, oneMag, _root_.one_mul] <;> exact mk_mag _ b

theorem div_one (x : F64) : div x (.fin false oneMag) = x := by
  cases x with
  | nan => rfl
  | inf t => cases t <;> simp [div]
  | fin t b =>
    have : ¬ (oneMag.1 = 0) := by simp [oneMag]
    simp only [div, if_neg this]
    simp only [oneMag, _root_.div_one]
    cases t <;> exact mk_mag _ b

/-- Finite doubles are multiples of the smallest subnormal. -/
theorem mag_grid (m : Mag) : ∃ k : Int, m.1 = k * pow2 (-1074) := by
  obtain ⟨⟨m', e, -, he, hq⟩, -⟩ := m.2
  obtain ⟨n, hn⟩ := pow2_split he
  exact ⟨m' * n, by rw [hq, hn]; push_cast; ring⟩

theorem value_grid (s : Bool) (m : Mag) : ∃ k : Int, value s m = k * pow2 (-1074) := by
  obtain ⟨k, hk⟩ := mag_grid m
  cases s
  · exact ⟨k, by simpa [value] using hk⟩
  · exact ⟨-k, by simp [value, hk]⟩

theorem grid_abs {k : Int} (h : (k : ℚ) * pow2 (-1074) ≠ 0) : pow2 (-1074) ≤ |(k : ℚ) * pow2 (-1074)| := by
  have hk : k ≠ 0 := by rintro rfl; simp at h
  rw [abs_mul, abs_of_pos (pow2_pos _)]
  have : (1 : ℚ) ≤ |(k : ℚ)| := by
    rw [← Int.cast_abs]; exact_mod_cast Int.one_le_abs hk
  nlinarith [pow2_pos (-1074)]

/-- A positive rational of at least the smallest subnormal rounds to something positive. -/
theorem round_pos {q : ℚ} (s : Bool) (h : pow2 (-1074) ≤ q) : lt (zero false) (round s q) = true := by
  have hq : 0 < q := (pow2_pos _).trans_le h
  unfold round
  rw [if_neg hq.ne', abs_of_pos hq]
  have hneg : decide (q < 0) = false := by simp [hq.le]
  rw [hneg]
  cases hm : mk false q with
  | nan => exact absurd hm (mk_ne_nan _ _)
  | inf t => obtain ⟨rfl, -⟩ := mk_inf hq.le hm; rfl
  | fin t m =>
    obtain ⟨rfl, -, h2⟩ := mk_fin hm
    have := roundMag_pos h
    simp [lt, zero, value, h2, this]

theorem round_neg_lt {q : ℚ} (s : Bool) (h : q ≤ -pow2 (-1074)) : lt (round s q) (zero false) = true := by
  have hq : q < 0 := by linarith [pow2_pos (-1074)]
  have hp := round_pos false (q := -q) (by linarith)
  have e : round s q = neg (round false (-q)) := by
    unfold round
    rw [if_neg hq.ne, if_neg (by linarith), abs_of_neg hq, abs_of_pos (by linarith : 0 < -q), ← mk_neg]
    simp [hq, not_lt.mpr hq.le]
  rw [e, show zero false = neg (zero true) from rfl, lt_neg]
  exact lt_of_le_of_lt (zero_le_zero _ _) hp

/-- The computed difference has the sign of the exact one: gradual underflow. -/
theorem sub_nonneg_iff (x v : F64) (h : ¬ ∃ s, x = .inf s ∧ v = .inf s) :
    le (zero false) (add x (neg v)) = true ↔ le v x = true := by
  cases x with
  | nan => simp [add, le_nan_right]
  | inf s =>
    cases v with
    | nan => simp [add, neg, le_nan_right, le_nan_left]
    | inf t => cases s <;> cases t <;> simp_all [add, neg, le, zero]
    | fin t b => cases s <;> simp [add, neg, le, zero]
  | fin s a =>
    cases v with
    | nan => simp [add, neg, le_nan_right, le_nan_left]
    | inf t => cases t <;> simp [add, neg, le, zero]
    | fin t b =>
      have hv : value (!t) b = -value t b := by cases t <;> simp [value]
      obtain ⟨k, hk⟩ := value_grid s a
      obtain ⟨l, hl⟩ := value_grid t b
      simp only [add, neg, hv, le, decide_eq_true_eq]
      constructor
      · intro h1
        by_contra hc
        have hd : value s a + -value t b = ((k - l : Int) : ℚ) * pow2 (-1074) := by rw [hk, hl]; push_cast; ring
        have hlt : value s a + -value t b < 0 := by linarith
        have := grid_abs (hd ▸ hlt.ne)
        rw [← hd, abs_of_neg hlt] at this
        have h2 := round_neg_lt (s && !t) (q := value s a + -value t b) (by linarith)
        have h3 := lt_of_le_of_lt h1 h2
        simp [lt, zero, value] at h3
      · intro h1
        have : round false 0 = zero false := if_pos rfl
        rw [← this]
        exact round_mono _ _ (by linarith)

/-! ### Products -/

theorem mk_eq_round (s : Bool) {q : ℚ} (h : 0 ≤ q) : mk s q = round s (if s then -q else q) := by
  rcases h.eq_or_lt with rfl | h
  · have : mk s (0 : ℚ) = zero s := mk_mag s ⟨0, isMag_zero⟩
    rw [this]
    cases s <;> simp [round]
  · cases s
    · simp [round, h.ne', abs_of_pos h, not_lt.mpr h.le]
    · simp [round, h.ne', abs_of_pos h, h]

theorem value_abs (s : Bool) (m : Mag) : |value s m| = m.1 := by
  cases s <;> simp [value, abs_of_nonneg (mag_nonneg m)]

theorem value_mul (s t : Bool) (a b : Mag) :
    value s a * value t b = if (s != t) then -(a.1 * b.1) else a.1 * b.1 := by
  cases s <;> cases t <;> simp [value]

theorem mul_fin (s t : Bool) (a b : Mag) :
    mul (.fin s a) (.fin t b) = round (s != t) (value s a * value t b) := by
  rw [value_mul]
  exact mk_eq_round _ (mul_nonneg (mag_nonneg a) (mag_nonneg b))

theorem mul_fin_ne_nan (s t : Bool) (a b : Mag) : mul (.fin s a) (.fin t b) ≠ .nan := mk_ne_nan _ _

theorem mul_comm (x y : F64) : mul x y = mul y x := by
  have hb : ∀ s t : Bool, (s != t) = (t != s) := by decide
  cases x <;> cases y <;> simp only [mul] <;> try rfl
  · rw [hb]
  · rw [hb]
  · rw [hb]
  · rw [hb, _root_.mul_comm]

theorem zero_le_fin {s : Bool} {a : Mag} : le (zero false) (.fin s a) = true ↔ 0 ≤ value s a := by
  simp [le, zero, value]

theorem fin_le_zero {s : Bool} {a : Mag} : le (.fin s a) (zero false) = true ↔ value s a ≤ 0 := by
  simp [le, zero, value]

theorem zero_lt_fin {s : Bool} {a : Mag} : lt (zero false) (.fin s a) = true ↔ 0 < value s a := by
  simp [lt, zero, value]

theorem round_nonneg {q : ℚ} (s : Bool) (h : 0 ≤ q) : le (zero false) (round s q) = true :=
  fin_le_round s false (m := ⟨0, isMag_zero⟩) (by simpa [value] using h)

theorem round_nonpos {q : ℚ} (s : Bool) (h : q ≤ 0) : le (round s q) (zero false) = true :=
  round_le_fin s false (m := ⟨0, isMag_zero⟩) (by simpa [value] using h)

theorem mul_nonneg' {x y : F64} (hx : le (zero false) x = true) (hy : le (zero false) y = true)
    (hn : mul x y ≠ .nan) : le (zero false) (mul x y) = true := by
  cases x with
  | nan => rw [le_nan_right] at hx; cases hx
  | inf s =>
    have hs : s = false := by simpa [le, zero] using hx
    subst hs
    cases y with
    | nan => rw [le_nan_right] at hy; cases hy
    | inf t =>
      have ht : t = false := by simpa [le, zero] using hy
      subst ht; rfl
    | fin t b =>
      simp only [mul] at hn ⊢
      split_ifs at hn ⊢ with hb
      · exact absurd rfl hn
      · have h2 := zero_le_fin.mp hy
        have hpos : 0 < b.1 := lt_of_le_of_ne (mag_nonneg b) (Ne.symm hb)
        cases t
        · rfl
        · simp [value] at h2; linarith
  | fin s a =>
    cases y with
    | nan => rw [le_nan_right] at hy; cases hy
    | inf t =>
      have ht : t = false := by simpa [le, zero] using hy
      subst ht
      simp only [mul] at hn ⊢
      split_ifs at hn ⊢ with hb
      · exact absurd rfl hn
      · have h2 := zero_le_fin.mp hx
        have hpos : 0 < a.1 := lt_of_le_of_ne (mag_nonneg a) (Ne.symm hb)
        cases s
        · rfl
        · simp [value] at h2; linarith
    | fin t b =>
      rw [mul_fin]
      exact round_nonneg _ (mul_nonneg (zero_le_fin.mp hx) (zero_le_fin.mp hy))

theorem mul_nonpos_nonneg {x y : F64} (hx : le x (zero false) = true) (hy : le (zero false) y = true)
    (hn : mul x y ≠ .nan) : le (mul x y) (zero false) = true := by
  rw [mul_comm] at hn ⊢
  exact mul_nonneg_nonpos hy hx hn

/-- A factor in `[0, 1]` does not increase a nonnegative finite double. -/
theorem mul_le_self {s : Bool} {a : Mag} {t : F64} (hx : 0 ≤ value s a) (h0 : le (zero false) t = true)
    (h1 : le t (.fin false oneMag) = true) : le (mul (.fin s a) t) (.fin s a) = true := by
  cases t with
  | nan => rw [le_nan_right] at h0; cases h0
  | inf u => cases u <;> simp [le, zero] at h0 h1
  | fin u b =>
    rw [mul_fin]
    apply round_le_fin
    have hb := zero_le_fin.mp h0
    have hb1 : value u b ≤ 1 := by simpa [le, value, oneMag] using h1
    nlinarith

/-- A factor `≥ 1` does not decrease a nonnegative double. -/
theorem le_mul_self {x t : F64} (hx : le (zero false) x = true) (h1 : le (.fin false oneMag) t = true)
    (hn : mul x t ≠ .nan) : le x (mul x t) = true := by
  have key : ∀ {s a u b}, x = .fin s a → t = .fin u b → le x (mul x t) = true := by
    rintro s a u b rfl rfl
    rw [mul_fin]
    apply fin_le_round
    have ha := zero_le_fin.mp hx
    have hb : 1 ≤ value u b := by simpa [le, value, oneMag] using h1
    nlinarith
  cases x with
  | nan => rw [le_nan_right] at hx; cases hx
  | inf s =>
    have hs : s = false := by simpa [le, zero] using hx
    subst hs
    cases t with
    | nan => rw [le_nan_right] at h1; cases h1
    | inf u =>
      have hu : u = false := by simpa [le] using h1
      subst hu; rfl
    | fin u b =>
      have hb : 1 ≤ value u b := by simpa [le, value, oneMag] using h1
      have hu : u = false := by
        cases u
        · rfl
        · simp [value] at hb; linarith [mag_nonneg b]
      subst hu
      have : ¬ b.1 = 0 := by intro h; simp [value, h] at hb; linarith
      simp only [mul, if_neg this]; rfl
  | fin s a =>
    cases t with
    | nan => rw [le_nan_right] at h1; cases h1
    | inf u =>
      have hu : u = false := by simpa [le] using h1
      subst hu
      simp only [mul] at hn ⊢
      split_ifs at hn ⊢ with hb
      · exact absurd rfl hn
      · have h2 := zero_le_fin.mp hx
        have hpos : 0 < a.1 := lt_of_le_of_ne (mag_nonneg a) (Ne.symm hb)
        cases s
        · rfl
        · simp [value] at h2; linarith
    | fin u b => exact key rfl rfl

/-- Zero times a double: a zero, or NaN. -/
theorem mul_zero_cases (x : F64) : mul x (zero false) = .nan ∨ ∃ s, mul x (zero false) = zero s := by
  cases x with
  | nan => exact Or.inl rfl
  | inf s => left; simp [mul, zero]
  | fin s a =>
    right
    refine ⟨s, ?_⟩
    have : mk s (0 : ℚ) = zero s := mk_mag s ⟨0, isMag_zero⟩
    simp only [mul, zero, mul_zero]
    cases s <;> exact this

theorem isFinite_iff {x : F64} : isFinite x = true ↔ ∃ s m, x = .fin s m := by
  cases x <;> simp [isFinite]

theorem lt_iff_not_le {x y : F64} (hx : x ≠ .nan) (hy : y ≠ .nan) : lt x y = true ↔ ¬ le y x = true := by
  have := not_le_iff hy hx
  rw [Bool.not_eq_true, this]

theorem lt_irrefl (x : F64) : lt x x = false := by
  cases x with
  | nan => rfl
  | inf s => cases s <;> rfl
  | fin s m => simp [lt]

theorem le_antisymm_fin {s t : Bool} {a b : Mag} (h : le (.fin s a) (.fin t b) = true) :
    value s a ≤ value t b := by simpa [le] using h

/-- A finite double above and below gives a finite double. -/
theorem finite_between {x : F64} {s t : Bool} {a b : Mag} (h1 : le (.fin s a) x = true)
    (h2 : le x (.fin t b) = true) : ∃ u m, x = .fin u m := by
  cases x with
  | nan => rw [le_nan_left] at h2; cases h2
  | inf u => cases u <;> simp [le] at h1 h2
  | fin u m => exact ⟨u, m, rfl⟩

end MiniOpt.F64
