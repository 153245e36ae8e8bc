import Verif.Props.DoublesStep
import Verif.Props.DoubleKKT

/-!
# C107: signs of slacks and multipliers along a run in doubles
-/

set_option autoImplicit false

namespace MiniOpt.Props

open MiniOpt MiniOpt.Spec MiniOpt.IP MiniOpt.F64

variable {L : Libm} {N M K : Nat}

/-- The step length loop never returns NaN, and respects every limit that is a number. -/
theorem alphaLoop_limit {n : Nat} (val dv : Fin n → Dbl L) (tau : Dbl L) :
    alphaLoop val dv tau ≤ 1 ∧
    ∀ i, val i + dv i ≤ 0 → 0 < Scalar.abs (dv i) → (-tau * val i / dv i : Dbl L) ≠ F64.nan →
      alphaLoop val dv tau ≤ -tau * val i / dv i := by
  unfold alphaLoop
  have key : ∀ (l : List (Fin n)) (a : Dbl L), a ≠ F64.nan →
      l.foldl (fun alpha i => if val i + dv i ≤ 0 ∧ 0 < Scalar.abs (dv i) then
        let cand := -tau * val i / dv i
        if cand < alpha then cand else alpha else alpha) a ≤ a ∧
      ∀ i ∈ l, val i + dv i ≤ 0 → 0 < Scalar.abs (dv i) → (-tau * val i / dv i : Dbl L) ≠ F64.nan →
        l.foldl (fun alpha i => if val i + dv i ≤ 0 ∧ 0 < Scalar.abs (dv i) then
        let cand := -tau * val i / dv i
        if cand < alpha then cand else alpha else alpha) a ≤ -tau * val i / dv i := by
    intro l
    induction l with
    | nil => intro a ha; exact ⟨dbl_le_refl ha, by simp⟩
    | cons i l ih =>
      intro a ha
      rw [List.foldl_cons]
      set b : Dbl L := if val i + dv i ≤ 0 ∧ 0 < Scalar.abs (dv i) then
        let cand := -tau * val i / dv i
        if cand < a then cand else a else a with hb
      have hb0 : b ≤ a ∧ (val i + dv i ≤ 0 → 0 < Scalar.abs (dv i) → (-tau * val i / dv i : Dbl L) ≠ F64.nan →
          b ≤ -tau * val i / dv i) := by
        rw [hb]
        have hra := dbl_le_refl ha
        split_ifs with h1
        · simp only
          split_ifs with h2
          · exact ⟨dbl_le_of_lt h2, fun _ _ h0 => dbl_le_refl h0⟩
          · exact ⟨hra, fun _ _ h0 => dbl_not_lt h0 ha h2⟩
        · exact ⟨hra, fun h2 h3 => absurd ⟨h2, h3⟩ h1⟩
      obtain ⟨h2, h3⟩ := ih b (dbl_le_ne_nan hb0.1).1
      refine ⟨dbl_le_trans h2 hb0.1, ?_⟩
      intro j hj hj1 hj2 hj3
      rcases List.mem_cons.mp hj with rfl | hj
      · exact dbl_le_trans h2 (hb0.2 hj1 hj2 hj3)
      · exact h3 j hj hj1 hj2 hj3
  obtain ⟨h2, h3⟩ := key (List.finRange n) 1 (dbl_le_ne_nan dbl_zero_le_one).2
  exact ⟨h2, fun i => h3 i (List.mem_finRange i)⟩

/-- A multiple of the smallest subnormal number that exceeds `v` by less than one does not exceed it. -/
theorem grid_le {a b : ℚ} {k l : Int} (ha : a = k * pow2 (-1074)) (hb : b = l * pow2 (-1074)) (h : a < b + pow2 (-1074)) :
    a ≤ b := by
  have hp := pow2_pos (-1074)
  rw [ha, hb] at h ⊢
  have : (k : ℚ) < l + 1 := by
    by_contra hc
    have := mul_le_mul_of_nonneg_right (not_lt.mp hc) hp.le
    linarith
  have : k ≤ l := by
    have : k < l + 1 := by exact_mod_cast this
    omega
  exact mul_le_mul_of_nonneg_right (by exact_mod_cast this) hp.le

/-- What a step does to one coordinate that is not negative: if the step length is a normal number that respects the limit
computed for this coordinate, the result is not negative. -/
theorem step_nonneg {v dv al t : Mag} {sd sa : Bool} (ht : t.1 ≤ 996 / 1000)
    (ha0 : pow2 (-1022) ≤ value sa al) (ha1 : value sa al ≤ 1)
    (hlim : value false v + value sd dv ≤ 0 → dv.1 ≠ 0 →
      F64.le (.fin sa al) (div (mul (.fin true t) (.fin false v)) (.fin sd dv)) = true) :
    F64.le (zero false) (add (.fin false v) (mul (.fin sd dv) (.fin sa al))) = true := by
  have hapos : 0 < value sa al := (pow2_pos _).trans_le ha0
  have hsa : sa = false := value_pos_sign hapos
  subst hsa
  have hav : value false al = al.1 := rfl
  rw [hav] at ha0 ha1 hapos
  have hdn := mag_nonneg dv
  have hvn := mag_nonneg v
  obtain ⟨w, hw, hwr, hwd⟩ := mk_finite_of_le (sd != false) (q := dv.1 * al.1) (m := dv) (mul_nonneg hdn hapos.le)
    (by nlinarith)
  have hmul : mul (.fin sd dv) (.fin false al) = .fin (sd != false) w := hw
  rw [hmul]
  have hsum : 0 ≤ value false v + value (sd != false) w →
      F64.le (zero false) (add (.fin false v) (.fin (sd != false) w)) = true := fun hp => round_nonneg _ hp
  apply hsum
  have hvv : value false v = v.1 := rfl
  rw [hvv] at hlim ⊢
  cases sd with
  | false =>
    have : value (false != false) w = w.1 := rfl
    rw [this]
    linarith [mag_nonneg w]
  | true =>
    have : value (true != false) w = -w.1 := rfl
    rw [this]
    have hdd : value true dv = -dv.1 := rfl
    rw [hdd] at hlim
    suffices hwv : w.1 ≤ v.1 by linarith
    by_cases hfull : v.1 + -dv.1 ≤ 0
    swap
    · linarith
    rcases eq_or_lt_of_le hdn with hd0 | hd0
    · linarith
    have hl := hlim hfull hd0.ne'
    have htn := mag_nonneg t
    obtain ⟨a, hA, hAr, hAv⟩ := mk_finite_of_le true (q := t.1 * v.1) (m := v) (mul_nonneg htn hvn) (by nlinarith)
    have hm1 : mul (.fin true t) (.fin false v) = .fin true a := hA
    rw [hm1] at hl
    have hdiv : div (.fin true a) (.fin true dv) = mk false (a.1 / dv.1) := by
      simp only [div, if_neg hd0.ne']; rfl
    rw [hdiv] at hl
    have han := mag_nonneg a
    have hq : 0 ≤ a.1 / dv.1 := div_nonneg han hd0.le
    obtain ⟨c, hc, hcr, -⟩ := mk_finite_of_le false (q := a.1 / dv.1) (m := oneMag) hq
      (by show a.1 / dv.1 ≤ 1; rw [div_le_one hd0]; linarith)
    rw [hc] at hl
    have hlc : al.1 ≤ c.1 := by simpa [le, value] using hl
    have c0 : pow2 (-1022) ≤ c.1 := ha0.trans hlc
    have p53 := pow2_pos (-53)
    have p1022 := pow2_pos (-1022)
    have e75 : pow2 (-1075) = pow2 (-53) * pow2 (-1022) := by rw [← pow2_add]; norm_num
    have hqpos : 0 < a.1 / dv.1 := by
      rcases hq.eq_or_lt with h0 | h0
      · rw [← h0, roundMag_zero] at hcr
        rw [hcr] at c0; linarith
      · exact h0
    have c53 : pow2 (-53) ≤ 1 / 10000 := by decide +kernel
    -- the quotient, with the relative error of a normal number
    have hcq : c.1 * (1 - pow2 (-53)) ≤ a.1 / dv.1 := by
      have h1 := (abs_le.mp (roundMag_err hqpos)).2
      rw [← hcr] at h1
      by_cases hbig : pow2 (-1022) ≤ a.1 / dv.1
      · have : max (a.1 / dv.1 * pow2 (-53)) (pow2 (-1075)) = a.1 / dv.1 * pow2 (-53) := by
          refine max_eq_left ?_
          rw [e75, _root_.mul_comm]
          exact mul_le_mul_of_nonneg_right hbig p53.le
        rw [this] at h1
        have h2 : c.1 ≤ (a.1 / dv.1) * (1 + pow2 (-53)) := by linarith
        calc c.1 * (1 - pow2 (-53)) ≤ (a.1 / dv.1) * (1 + pow2 (-53)) * (1 - pow2 (-53)) :=
              mul_le_mul_of_nonneg_right h2 (by linarith)
          _ = (a.1 / dv.1) * (1 - pow2 (-53) * pow2 (-53)) := by ring
          _ ≤ (a.1 / dv.1) * 1 := mul_le_mul_of_nonneg_left (by linarith [mul_pos p53 p53]) hq
          _ = _ := _root_.mul_one _
      · have hlt := not_le.mp hbig
        have : max (a.1 / dv.1 * pow2 (-53)) (pow2 (-1075)) ≤ pow2 (-1022) * pow2 (-53) := by
          refine max_le (mul_le_mul_of_nonneg_right hlt.le p53.le) ?_
          rw [e75, _root_.mul_comm]
        have h2 : c.1 - pow2 (-1022) * pow2 (-53) ≤ a.1 / dv.1 := by linarith
        have h3 : pow2 (-1022) * pow2 (-53) ≤ c.1 * pow2 (-53) := mul_le_mul_of_nonneg_right c0 p53.le
        linarith
    have hdc : dv.1 * al.1 * (1 - pow2 (-53)) ≤ a.1 := by
      have h1 : dv.1 * (a.1 / dv.1) = a.1 := by field_simp
      have h2 : al.1 * (1 - pow2 (-53)) ≤ a.1 / dv.1 :=
        (mul_le_mul_of_nonneg_right hlc (by linarith)).trans hcq
      calc dv.1 * al.1 * (1 - pow2 (-53)) = dv.1 * (al.1 * (1 - pow2 (-53))) := by ring
        _ ≤ dv.1 * (a.1 / dv.1) := mul_le_mul_of_nonneg_left h2 hd0.le
        _ = a.1 := h1
    have hx0 : 0 < dv.1 * al.1 := mul_pos hd0 hapos
    by_cases hv : pow2 (-1060) ≤ v.1
    · -- normal enough: `0.995` leaves room
      have hA1 : a.1 ≤ 997 / 1000 * v.1 := by
        rw [hAr]
        rcases (mul_nonneg htn hvn).eq_or_lt with h0 | hpos
        · rw [← h0, roundMag_zero]; positivity
        · have h1 := (abs_le.mp (roundMag_err hpos)).2
          have h2 : max (t.1 * v.1 * pow2 (-53)) (pow2 (-1075)) ≤ 1 / 1000 * v.1 := by
            apply max_le
            · calc t.1 * v.1 * pow2 (-53) ≤ 1 * v.1 * (1 / 1000) := by
                    apply mul_le_mul _ (by linarith) p53.le (by linarith)
                    exact mul_le_mul_of_nonneg_right (by linarith) hvn
                _ = _ := by ring
            · have e : pow2 (-1075) = pow2 (-15) * pow2 (-1060) := by rw [← pow2_add]; norm_num
              have c15 : pow2 (-15) ≤ 1 / 1000 := by decide +kernel
              rw [e]
              exact mul_le_mul c15 hv (pow2_pos _).le (by norm_num)
          nlinarith
      have h2 : dv.1 * al.1 ≤ v.1 := by
        have : dv.1 * al.1 * (9999 / 10000) ≤ dv.1 * al.1 * (1 - pow2 (-53)) :=
          mul_le_mul_of_nonneg_left (by linarith) hx0.le
        linarith
      rw [hwr]
      exact (roundMag_mono hx0.le h2).trans (roundMag_mag v).le
    · -- near the bottom of the range: everything is a multiple of the smallest subnormal number
      have hv' := not_le.mp hv
      obtain ⟨k, hk⟩ := mag_grid w
      obtain ⟨l, hl'⟩ := mag_grid v
      refine grid_le hk hl' ?_
      rw [hwr]
      have h1 := (abs_le.mp (roundMag_err hx0)).2
      have hx1 : dv.1 * al.1 ≤ 2 * v.1 := by
        have : dv.1 * al.1 * (1 / 2) ≤ dv.1 * al.1 * (1 - pow2 (-53)) := mul_le_mul_of_nonneg_left (by linarith) hx0.le
        linarith
      have hx2 : dv.1 * al.1 ≤ v.1 + 2 * v.1 * pow2 (-53) := by
        have : dv.1 * al.1 * pow2 (-53) ≤ 2 * v.1 * pow2 (-53) := mul_le_mul_of_nonneg_right hx1 p53.le
        linarith
      have e1 : 2 * v.1 * pow2 (-53) ≤ pow2 (-1112) := by
        have e : pow2 (-1112) = 2 * pow2 (-1060) * pow2 (-53) := by
          have : (2 : ℚ) = pow2 1 := by decide +kernel
          rw [this, ← pow2_add, ← pow2_add]; norm_num
        rw [e]
        exact mul_le_mul_of_nonneg_right (by linarith) p53.le
      have e2 : max (dv.1 * al.1 * pow2 (-53)) (pow2 (-1075)) ≤ pow2 (-1075) := by
        refine max_le ?_ _root_.le_rfl
        have : dv.1 * al.1 * pow2 (-53) ≤ 2 * v.1 * pow2 (-53) := mul_le_mul_of_nonneg_right hx1 p53.le
        exact this.trans (e1.trans (pow2_mono (by norm_num)))
      have e3 : pow2 (-1074) = pow2 (-1075) + pow2 (-1075) := by
        have : pow2 (-1074) = pow2 1 * pow2 (-1075) := by rw [← pow2_add]; norm_num
        have h2 : pow2 1 = 2 := by decide +kernel
        rw [this, h2]; ring
      have e4 : pow2 (-1112) < pow2 (-1075) := pow2_lt (by norm_num)
      linarith

/-- The same for a coordinate that is a zero of either sign. -/
theorem step_zero_nonneg {v dv al t : Mag} {sv sd sa : Bool} (hv : v.1 = 0)
    (ha0 : pow2 (-1022) ≤ value sa al)
    (hlim : value sv v + value sd dv ≤ 0 → dv.1 ≠ 0 →
      F64.le (.fin sa al) (div (mul (.fin true t) (.fin sv v)) (.fin sd dv)) = true) :
    F64.le (zero false) (add (.fin sv v) (mul (.fin sd dv) (.fin sa al))) = true := by
  have hapos : 0 < value sa al := (pow2_pos _).trans_le ha0
  have hsa : sa = false := value_pos_sign hapos
  subst hsa
  have hv0 : value sv v = 0 := by cases sv <;> simp [value, hv]
  have hdn := mag_nonneg dv
  rw [hv0] at hlim
  by_cases hd : sd = true ∧ dv.1 ≠ 0
  · obtain ⟨rfl, hd⟩ := hd
    have hl := hlim (by show 0 + -dv.1 ≤ 0; linarith) hd
    exfalso
    have h1 : mul (.fin true t) (.fin sv v) = mk (true != sv) 0 := by simp only [mul, hv, mul_zero]
    have h0 : ∀ s, ∃ m : Mag, mk s 0 = .fin s m ∧ m.1 = 0 := fun s => by
      obtain ⟨w, hw, hwr, -⟩ := mk_finite_of_le s (q := 0) (m := v) _root_.le_rfl (by rw [hv])
      exact ⟨w, hw, by rw [hwr, roundMag_zero]⟩
    obtain ⟨a, ha, ha1⟩ := h0 (true != sv)
    rw [h1, ha] at hl
    simp only [div, if_neg hd, ha1, zero_div] at hl
    obtain ⟨c, hc, hc1⟩ := h0 ((true != sv) != true)
    rw [hc] at hl
    have : value false al ≤ value ((true != sv) != true) c := by simpa [le] using hl
    have h3 : value ((true != sv) != true) c = 0 := by
      generalize ((true != sv) != true) = b
      cases b <;> simp [value, hc1]
    linarith
  · have hal : 0 ≤ al.1 := mag_nonneg al
    have hm : mul (.fin sd dv) (.fin false al) = mk (sd != false) (dv.1 * al.1) := rfl
    by_cases hd0 : dv.1 = 0
    · obtain ⟨w, hw, hwr, -⟩ := mk_finite_of_le (sd != false) (q := dv.1 * al.1) (m := v)
        (mul_nonneg hdn hal) (by rw [hd0, hv, zero_mul])
      have hw0 : w.1 = 0 := by rw [hwr, hd0, zero_mul, roundMag_zero]
      rw [hm, hw]
      refine round_nonneg _ ?_
      rw [hv0]
      generalize (sd != false) = b
      cases b <;> simp [value, hw0]
    · have hsd : sd = false := by
        by_contra hc
        exact hd ⟨by simpa using hc, hd0⟩
      subst hsd
      rw [hm]
      have hn : F64.le (zero false) (mk (false != false) (dv.1 * al.1)) = true := mk_nonneg _
      revert hn
      generalize mk (false != false) (dv.1 * al.1) = w
      intro hn
      cases w with
      | nan => simp [le, zero] at hn
      | inf s => cases s <;> simp_all [le, zero, add]
      | fin s w =>
        refine round_nonneg _ ?_
        rw [hv0]
        have := zero_le_fin.mp hn
        linarith

/-- The sum test of the step length loop is exact. -/
theorem sum_test (v d : Mag) (sv sd : Bool) : F64.le (add (.fin sv v) (.fin sd d)) (zero false) = true ↔
    value sv v + value sd d ≤ 0 := by
  constructor
  · intro hle
    by_contra hc
    obtain ⟨k, hk⟩ := value_grid sv v
    obtain ⟨l, hl⟩ := value_grid sd d
    have he : value sv v + value sd d = ((k + l : Int) : ℚ) * pow2 (-1074) := by rw [hk, hl]; push_cast; ring
    have hp : 0 < value sv v + value sd d := not_le.mp hc
    have hg := grid_abs (he ▸ hp.ne')
    rw [← he, abs_of_pos hp] at hg
    have h2 : F64.lt (zero false) (add (.fin sv v) (.fin sd d)) = true := round_pos _ hg
    have h3 := F64.lt_of_lt_of_le h2 hle
    rw [F64.lt_irrefl] at h3; cases h3
  · intro hle
    exact round_nonpos _ hle

/-- The step length loop on doubles: as long as the step length is a normal number, no coordinate that is not negative becomes
negative. -/
theorem alphaLoop_nonneg {n : Nat} (val dv : Fin n → Dbl L) (i : Fin n) (h0 : 0 ≤ val i) (hf : Dbl.Finite (val i))
    (hd : Dbl.Finite (dv i)) (ha : pow2 (-1022) ≤ (alphaLoop val dv tauStep : Dbl L).toRat) :
    0 ≤ val i + dv i * alphaLoop val dv tauStep := by
  obtain ⟨t, ht, ht0, ht1⟩ := tau_value (L := L)
  have hneg : (-(tauStep : Dbl L)) = F64.fin true t := by rw [ht]; rfl
  obtain ⟨h1, hle⟩ := alphaLoop_limit val dv tauStep
  have hlim := hle i
  obtain ⟨sv, v, hv⟩ := F64.isFinite_iff.mp hf
  obtain ⟨sd, d, hd⟩ := F64.isFinite_iff.mp hd
  revert ha h1 hlim
  generalize (alphaLoop val dv tauStep : Dbl L) = al
  intro ha h1 hlim
  have hal : ∃ sa a, al = F64.fin sa a := by
    have hp := pow2_pos (-1022)
    cases al with
    | nan => exact absurd ha (by show ¬ pow2 (-1022) ≤ 0; linarith)
    | inf s => exact absurd ha (by show ¬ pow2 (-1022) ≤ 0; linarith)
    | fin s a => exact ⟨s, a, rfl⟩
  obtain ⟨sa, a, rfl⟩ := hal
  rw [hv, hd] at hlim ⊢
  rw [hv] at h0
  rw [hneg] at hlim
  have ha' : pow2 (-1022) ≤ value sa a := ha
  have hlim' : value sv v + value sd d ≤ 0 → d.1 ≠ 0 →
      F64.le (.fin sa a) (div (mul (.fin true t) (.fin sv v)) (.fin sd d)) = true := by
    intro hs hd0
    refine hlim ((sum_test v d sv sd).mpr hs) ?_ ?_
    · show F64.lt (zero false) (.fin false d) = true
      rw [zero_lt_fin]
      exact lt_of_le_of_ne (mag_nonneg d) (Ne.symm hd0)
    · show div (mul (.fin true t) (.fin sv v)) (.fin sd d) ≠ .nan
      obtain ⟨w, hw, -, -⟩ := mk_finite_of_le (true != sv) (q := t.1 * v.1) (m := v) (mul_nonneg ht0 (mag_nonneg v))
        (by nlinarith [mag_nonneg v])
      have hm : mul (.fin true t) (.fin sv v) = .fin (true != sv) w := hw
      rw [hm]
      simp only [div, if_neg hd0]
      exact mk_ne_nan _ _
  have hvn : 0 ≤ value sv v := zero_le_fin.mp h0
  rw [dbl_one] at h1
  have h1' : value sa a ≤ 1 := by
    have h1' : F64.le (.fin sa a) (.fin false oneMag) = true := h1
    have : value sa a ≤ value false oneMag := by simpa [le] using h1'
    exact this
  rcases hvn.eq_or_lt with hz | hp
  · have hv0 : v.1 = 0 := by cases sv <;> simp [value] at hz <;> simp [hz]
    exact step_zero_nonneg (t := t) hv0 ha' hlim'
  · obtain rfl := value_pos_sign hp
    exact step_nonneg (t := t) ht1 ha' h1' hlim'

theorem normal_rat {x : Dbl L} (h : smallestNormal ≤ realVal x) : pow2 (-1022) ≤ x.toRat := by
  have : ((pow2 (-1022) : ℚ) : ℝ) ≤ (x.toRat : ℝ) := by
    rw [pow2_eq]; push_cast; exact h
  exact_mod_cast this

theorem one_div_nonneg_dbl {s : Dbl L} (h : 0 < s) : 0 ≤ 1 / s := by
  rw [dbl_one]
  have h' : F64.lt (zero false) s = true := h
  show F64.le (zero false) (div (.fin false oneMag) s) = true
  cases s with
  | nan => simp [lt, zero] at h'
  | inf b => cases b <;> simp_all [lt, le, zero, div]
  | fin b m =>
    have hp := zero_lt_fin.mp h'
    obtain rfl := value_pos_sign hp
    have : m.1 ≠ 0 := (show 0 < m.1 from hp).ne'
    simp only [div, if_neg this]
    exact mk_nonneg _

/-- One iteration: if the new slacks and multipliers are finite and the step lengths are normal numbers, then the old ones are
finite, and the new ones are not negative if the old multipliers are not. -/
theorem iterate_signs {E : Eigen N K (Dbl L)} {p : QP N M K (Dbl L)} {mu : Dbl L} {strategy : BarrierStrategy}
    {st st' : IPState N M K (Dbl L)} {out : IPIterationOutputs (Dbl L)}
    (h : iterate E p mu strategy st = .ok (st', out))
    (hf : ∀ m, Dbl.Finite (st'.v.s m) ∧ Dbl.Finite (st'.v.z m))
    (ha : smallestNormal ≤ realVal out.alpha.primal ∧ smallestNormal ≤ realVal out.alpha.dual) :
    (∀ m, Dbl.Finite (st.v.s m) ∧ Dbl.Finite (st.v.z m)) ∧ (∀ m, 0 < st.v.s m) ∧
    ((∀ m, 0 ≤ st.v.z m) → ∀ m, 0 ≤ st'.v.s m ∧ 0 ≤ st'.v.z m) := by
  obtain ⟨st1, h1, h2, h3, -⟩ := iterate_ok h
  obtain ⟨hv, -⟩ := direction_fields p mu strategy st1
  have hv1 : st1.v = st.v := by
    have := (computeLDLT_ok h1).2.2
    rw [this]; exact evaluateKKT_v' p true st
  have hs := (computeLDLT_ok h1).1 rfl
  rw [evaluateKKT_v'] at hs
  rw [hv1] at hv
  have es : ∀ m, st'.v.s m = st.v.s m + (direction p mu strategy st1).1.delta.s m * out.alpha.primal := fun m => by
    rw [h2]; simp only [applyStep, hv]
  have ez : ∀ m, st'.v.z m = st.v.z m + (direction p mu strategy st1).1.delta.z m * out.alpha.dual := fun m => by
    rw [h2]; simp only [applyStep, hv]
  have fs : ∀ m, Dbl.Finite (st.v.s m) ∧ Dbl.Finite ((direction p mu strategy st1).1.delta.s m) := fun m => by
    have := (hf m).1
    rw [es] at this
    obtain ⟨a, b⟩ := add_finite this
    exact ⟨a, (mul_finite b).1⟩
  have fz : ∀ m, Dbl.Finite (st.v.z m) ∧ Dbl.Finite ((direction p mu strategy st1).1.delta.z m) := fun m => by
    have := (hf m).2
    rw [ez] at this
    obtain ⟨a, b⟩ := add_finite this
    exact ⟨a, (mul_finite b).1⟩
  refine ⟨fun m => ⟨(fs m).1, (fz m).1⟩, hs, fun hz m => ?_⟩
  have hM : 0 < M := Nat.lt_of_le_of_lt (Nat.zero_le _) m.isLt
  have hal : out.alpha = computeAlpha (direction p mu strategy st1).1 tauStep := by
    rw [h3]; exact if_pos hM
  rw [es, ez]
  rw [hal] at ha ⊢
  simp only [computeAlpha, hv] at ha ⊢
  exact ⟨alphaLoop_nonneg _ _ m (dbl_le_of_lt (hs m)) (fs m).1 (fs m).2 (normal_rat ha.1),
    alphaLoop_nonneg _ _ m (hz m) (fz m).1 (fz m).2 (normal_rat ha.2)⟩

/-- **C107** (signs in doubles). Every solve in binary64 - any matrices, any order of summation, any linear solver, however bad
its solutions - in which no logged step length underflows and whose final slacks and multipliers are finite, ends with
slacks and multipliers that are not negative. (With `USER_PROVIDED` the user's multipliers must not be negative.) -/
theorem C107_signs (E : Eigen N K (Dbl L)) (p : QP N M K (Dbl L)) (prm : QPParams (Dbl L))
    (st : IPState N M K (Dbl L)) (r : IPState N M K (Dbl L) × QPOutputs (Dbl L)) (h : solve E p prm st = .ok r)
    (hguess : prm.initialGuessMethod = .userProvided → ∀ m, 0 ≤ st.v.z m)
    (hf : ∀ m, Dbl.Finite (r.1.v.s m) ∧ Dbl.Finite (r.1.v.z m)) (ha : StepsNormal r.2) :
    ∀ m, 0 ≤ r.1.v.s m ∧ 0 ≤ r.1.v.z m := by
  obtain ⟨st0, sts, mus, h0, ht, hlen, -, hr, -⟩ := solve_traj h
  set its := r.2.iterations with hits
  -- everything before is finite, too
  have hfin : ∀ j, j ≤ its.length → ∀ m, Dbl.Finite ((sts (its.length - j)).v.s m) ∧ Dbl.Finite ((sts (its.length - j)).v.z m) := by
    intro j
    induction j with
    | zero => intro _; rw [Nat.sub_zero, ← hr]; exact hf
    | succ j ih =>
      intro hj
      have hk : its.length - (j + 1) < its.length := by omega
      obtain ⟨s1, h1, h2⟩ := (ht.body _ hk).out
      have e : its.length - (j + 1) + 1 = its.length - j := by omega
      rw [e] at h2
      have ih' := ih (by omega)
      rw [h2] at ih'
      simp only [evaluateKKT_v'] at ih'
      exact (iterate_signs h1 ih' (ha _ (List.getElem_mem hk))).1
  have hfk : ∀ k, k ≤ its.length → ∀ m, Dbl.Finite ((sts k).v.s m) ∧ Dbl.Finite ((sts k).v.z m) := fun k hk => by
    have := hfin (its.length - k) (by omega)
    rwa [show its.length - (its.length - k) = k by omega] at this
  have hstep : ∀ k (hk : k < its.length), (∀ m, 0 < (sts k).v.s m) ∧
      ((∀ m, 0 ≤ (sts k).v.z m) → ∀ m, 0 ≤ (sts (k + 1)).v.s m ∧ 0 ≤ (sts (k + 1)).v.z m) := by
    intro k hk
    obtain ⟨s1, h1, h2⟩ := (ht.body k hk).out
    have hf' := hfk (k + 1) hk
    rw [h2] at hf' ⊢
    simp only [evaluateKKT_v'] at hf' ⊢
    exact (iterate_signs h1 hf' (ha _ (List.getElem_mem hk))).2
  -- the start
  have hz0 : ∀ m, 0 ≤ (sts 0).v.z m := by
    have hs0 := (hstep 0 hlen).1
    rw [ht.s0] at hs0 ⊢
    simp only [evaluateKKT_v'] at hs0 ⊢
    have hfinish : ∀ s : IPState N M K (Dbl L), finishGuess p s = .ok st0 → ∀ m, 0 ≤ st0.v.z m := by
      intro s hs m
      unfold finishGuess at hs
      split at hs
      · cases hs
      · cases hs
        exact one_div_nonneg_dbl (hs0 m)
    unfold initialGuess at h0
    split at h0
    · rename_i hm
      cases h0
      exact hguess hm
    · exact hfinish _ h0
    · split at h0
      · cases h0
      · exact hfinish _ h0
  have hall : ∀ k, k ≤ its.length → ∀ m, 0 ≤ (sts k).v.z m := by
    intro k
    induction k with
    | zero => exact fun _ => hz0
    | succ k ih => exact fun hk m => ((hstep k hk).2 (ih (by omega)) m).2
  intro m
  obtain ⟨j, hj⟩ : ∃ j, its.length = j + 1 := ⟨its.length - 1, by omega⟩
  have := (hstep j (by omega)).2 (hall j (by omega)) m
  rw [← hj, ← hr] at this
  exact this

/-- **C107**, what a user gets: the guarantee of `C102_near_optimal_double` from facts the log shows. A solve in binary64 that
reports SATISFIED_KKT_TOL, with no NaN in the final residual norms and no step length that underflowed, has found a point that
violates no constraint of the exact problem by more than the tolerance and the rounding errors, and that is as good as any
feasible point up to the tolerances if the exact problem is convex. -/
theorem C107_near_optimal (hL : AddsUp L) (E : Eigen N K (Dbl L)) (p : QP N M K (Dbl L)) (prm : QPParams (Dbl L))
    (st : IPState N M K (Dbl L)) (r : IPState N M K (Dbl L) × QPOutputs (Dbl L)) (h : solve E p prm st = .ok r)
    (hT : r.2.termination = .satisfiedKktTol) (htol : Dbl.Finite prm.terminationKktTol)
    (hctol : Dbl.Finite prm.terminationComplementarityTol) (hM : M ≤ 2 ^ 53)
    (hguess : prm.initialGuessMethod = .userProvided → ∀ m, 0 ≤ st.v.z m)
    (hnan : ∀ it, r.2.iterations.getLast? = some it → it.kktFinal.rPrimalEq ≠ F64.nan ∧ it.kktFinal.rPrimalIneq ≠ F64.nan)
    (ha : StepsNormal r.2) :
    let P := realQP p
    let V := realBlocks r.1.v
    let tol := realVal prm.terminationKktTol
    let dualTol := inflated N tol + l2 (fun i => slop (N + K + M + 2) (N + K + M) (gradMagnitude P V i))
    let eqTol := inflated K tol + l2 (fun k => slop (N + 1) N (eqMagnitude P V.x k))
    let ineqTol := inflated M tol + l2 (fun m => slop 3 1 (ineqMagnitude P V m))
    (∀ m, 0 ≤ V.s m ∧ 0 ≤ V.z m) ∧
    (∑ m, V.s m * V.z m) ≤ M * realVal prm.terminationComplementarityTol + slop M M (∑ m, V.s m * V.z m) ∧
    (∀ m, -ineqTol ≤ ineqVal P V.x m) ∧ (∀ k, |eqVal P V.x k| ≤ eqTol) ∧
    (PSDG P → ∀ x' : Fin N → ℝ, Feasible P x' →
      objective P V.x - objective P x' ≤ M * realVal prm.terminationComplementarityTol
        + slop M M (∑ m, V.s m * V.z m) + dualTol * l2 (fun i => V.x i - x' i) + eqTol * l2 V.y + ineqTol * l2 V.z) := by
  intro P V tol dualTol eqTol ineqTol
  have hf := (C102_satisfied_double hL E p prm st r h hT htol hnan).2.1
  have hsz := C107_signs E p prm st r h hguess hf ha
  have hs := fun m => (hsz m).1
  have hz := fun m => (hsz m).2
  exact ⟨fun m => ⟨zero_le_real (hs m), zero_le_real (hz m)⟩,
    C102_complementarity_double hL E p prm st r h hT htol hctol hM hnan hs hz,
    C102_near_optimal_double hL E p prm st r h hT htol hctol hM hnan hs hz⟩

set_option maxRecDepth 100000 in
set_option exponentiation.threshold 2000 in
/-- **C107** (the hypothesis is needed). The slack `0.6 * 2^-74` and the step `-2^1000`, both finite: the largest admissible
step length, `0.597 * 2^-1074`, is rounded up to `2^-1074`, and the new slack is negative. -/
theorem C107_underflowed_step : ∃ s ds : Dbl L, 0 < s ∧ Dbl.Finite s ∧ Dbl.Finite ds ∧
    realVal (alphaLoop (fun _ : Fin 1 => s) (fun _ => ds) tauStep) < smallestNormal ∧
    s + ds * alphaLoop (fun _ : Fin 1 => s) (fun _ => ds) tauStep < 0 := by
  have hrun : alphaLoop (fun _ : Fin 1 => toDbl L (F64.round false (6 / 10 * pow2 (-74))))
      (fun _ => toDbl L (F64.neg (F64.round false (pow2 1000)))) tauStep = toDbl L (F64.round false (pow2 (-1074))) := by
    unfold alphaLoop
    have hl : List.finRange 1 = [0] := rfl
    rw [hl]
    simp only [List.foldl_cons, List.foldl_nil]
    rw [if_pos, if_pos]
    · show div (mul (F64.neg (F64.round false (995 / 1000))) (F64.round false (6 / 10 * pow2 (-74))))
        (F64.neg (F64.round false (pow2 1000))) = F64.round false (pow2 (-1074))
      decide +kernel
    · show F64.lt (div (mul (F64.neg (F64.round false (995 / 1000))) (F64.round false (6 / 10 * pow2 (-74))))
        (F64.neg (F64.round false (pow2 1000)))) (F64.round false 1) = true
      decide +kernel
    · constructor
      · show F64.le (add (F64.round false (6 / 10 * pow2 (-74))) (F64.neg (F64.round false (pow2 1000)))) (zero false) = true
        decide +kernel
      · show F64.lt (zero false) (F64.abs (F64.neg (F64.round false (pow2 1000)))) = true
        decide +kernel
  refine ⟨toDbl L (F64.round false (6 / 10 * pow2 (-74))), toDbl L (F64.neg (F64.round false (pow2 1000))), ?_, ?_, ?_, ?_, ?_⟩
  · show F64.lt (zero false) (F64.round false (6 / 10 * pow2 (-74))) = true; decide +kernel
  · show F64.isFinite (F64.round false (6 / 10 * pow2 (-74))) = true; decide +kernel
  · show F64.isFinite (F64.neg (F64.round false (pow2 1000))) = true; decide +kernel
  · rw [hrun]
    have : (toDbl L (F64.round false (pow2 (-1074)))).toRat < pow2 (-1022) := by
      have e : ∀ x : F64, (toDbl L x).toRat = (toDbl DemoF64.seqL x).toRat := fun x => by cases x <;> rfl
      rw [e]
      decide +kernel
    have h2 : (((toDbl L (F64.round false (pow2 (-1074)))).toRat : ℚ) : ℝ) < ((pow2 (-1022) : ℚ) : ℝ) := by exact_mod_cast this
    rw [pow2_eq (-1022)] at h2; push_cast at h2; exact h2
  · rw [hrun]
    show F64.lt (add (F64.round false (6 / 10 * pow2 (-74))) (mul (F64.neg (F64.round false (pow2 1000)))
      (F64.round false (pow2 (-1074))))) (zero false) = true
    decide +kernel

/-- Non-vacuity: a run in binary64 (`½x² - x` subject to `x ≥ 2`) that meets every hypothesis. -/
theorem C107_demo : AddsUp DemoF64.seqL ∧ ∃ r, solve DemoF64.inv1 DemoF64.qp1 (DemoF64.qpPrm 10 .complementarity)
      (setupState (DemoF64.zero1 1)) = .ok r ∧ r.2.termination = .satisfiedKktTol ∧
    Dbl.Finite (DemoF64.qpPrm 10 .complementarity).terminationKktTol ∧
    Dbl.Finite (DemoF64.qpPrm 10 .complementarity).terminationComplementarityTol ∧
    (DemoF64.qpPrm 10 .complementarity).initialGuessMethod ≠ .userProvided ∧
    (∀ it, r.2.iterations.getLast? = some it → it.kktFinal.rPrimalEq ≠ F64.nan ∧ it.kktFinal.rPrimalIneq ≠ F64.nan) ∧
    1 < r.2.iterations.length ∧ StepsNormal r.2 := by
  refine ⟨seqL_addsUp, ?_⟩
  have h : (match solve DemoF64.inv1 DemoF64.qp1 (DemoF64.qpPrm 10 .complementarity) (setupState (DemoF64.zero1 1)) with
    | .ok (_, out) => decide (out.termination = .satisfiedKktTol ∧
        (out.iterations.getLast?.all fun it => decide (it.kktFinal.rPrimalEq ≠ F64.nan ∧ it.kktFinal.rPrimalIneq ≠ F64.nan))
          = true ∧ 1 < out.iterations.length ∧
        ∀ it ∈ out.iterations, pow2 (-1022) ≤ it.ip.alpha.primal.toRat ∧ pow2 (-1022) ≤ it.ip.alpha.dual.toRat)
    | .error _ => false) = true := by decide +kernel
  split at h
  · rename_i st' out hs
    obtain ⟨h1, h2, h3, h4⟩ := of_decide_eq_true h
    refine ⟨(st', out), hs, h1, by decide +kernel, by decide +kernel, by decide, ?_, h3, ?_⟩
    · intro it hit
      change out.iterations.getLast? = some it at hit
      rw [hit] at h2
      simp only [Option.all_some, decide_eq_true_eq] at h2
      exact ⟨fun e => h2.1 e, fun e => h2.2 e⟩
    · have key : ∀ x : DemoF64.D64, pow2 (-1022) ≤ x.toRat → smallestNormal ≤ realVal x := fun x hx => by
        have h2 : ((pow2 (-1022) : ℚ) : ℝ) ≤ ((x.toRat : ℚ) : ℝ) := by exact_mod_cast hx
        rw [pow2_eq] at h2; push_cast at h2; exact h2
      intro it hit
      exact ⟨key _ (h4 it hit).1, key _ (h4 it hit).2⟩
  · cases h

end MiniOpt.Props
