import Verif.Props.DoublesState

/-!
# C07 in binary64: one interior point step keeps slacks and multipliers positive

In exact arithmetic (`C07_slacks_positive`) this holds along whole runs. With rounding it holds for every step whose
data stay away from underflow, and fails below: both are shown here.
-/

set_option autoImplicit false

namespace MiniOpt.Props

open MiniOpt MiniOpt.F64 MiniOpt.IP

variable {L : Libm}

/-- The numerical value of a finite double (0 otherwise). -/
def toRat : F64 → ℚ
  | .fin s m => F64.value s m
  | _ => 0

theorem alphaLoop_bounds {n : Nat} (val dv : Fin n → Dbl L) (tau : Dbl L)
    (hc : ∀ i, val i + dv i ≤ 0 → 0 < Scalar.abs (dv i) → 0 ≤ -tau * val i / dv i) :
    0 ≤ alphaLoop val dv tau ∧ alphaLoop val dv tau ≤ 1 ∧
    ∀ i, val i + dv i ≤ 0 → 0 < Scalar.abs (dv i) → alphaLoop val dv tau ≤ -tau * val i / dv i := by
  unfold alphaLoop
  have key : ∀ (l : List (Fin n)) (a : Dbl L), 0 ≤ a →
      0 ≤ l.foldl (fun alpha i => if val i + dv i ≤ 0 ∧ 0 < Scalar.abs (dv i) then
        let cand := -tau * val i / dv i
        if cand < alpha then cand else alpha else alpha) a ∧
      l.foldl (fun alpha i => if val i + dv i ≤ 0 ∧ 0 < Scalar.abs (dv i) then
        let cand := -tau * val i / dv i
        if cand < alpha then cand else alpha else alpha) a ≤ a ∧
      ∀ i ∈ l, val i + dv i ≤ 0 → 0 < Scalar.abs (dv i) →
        l.foldl (fun alpha i => if val i + dv i ≤ 0 ∧ 0 < Scalar.abs (dv i) then
        let cand := -tau * val i / dv i
        if cand < alpha then cand else alpha else alpha) a ≤ -tau * val i / dv i := by
    intro l
    induction l with
    | nil => intro a ha; exact ⟨ha, dbl_le_refl (dbl_le_ne_nan ha).2, by simp⟩
    | cons i l ih =>
      intro a ha
      rw [List.foldl_cons]
      set b : Dbl L := if val i + dv i ≤ 0 ∧ 0 < Scalar.abs (dv i) then
        let cand := -tau * val i / dv i
        if cand < a then cand else a else a with hb
      have hb0 : 0 ≤ b ∧ b ≤ a ∧ (val i + dv i ≤ 0 → 0 < Scalar.abs (dv i) → b ≤ -tau * val i / dv i) := by
        rw [hb]
        have hra := dbl_le_refl (dbl_le_ne_nan ha).2
        split_ifs with h1
        · have h0 := hc i h1.1 h1.2
          simp only
          split_ifs with h2
          · exact ⟨h0, dbl_le_of_lt h2, fun _ _ => dbl_le_refl (dbl_le_ne_nan h0).2⟩
          · exact ⟨ha, hra, fun _ _ => dbl_not_lt (dbl_le_ne_nan h0).2 (dbl_le_ne_nan ha).2 h2⟩
        · exact ⟨ha, hra, fun h2 h3 => absurd ⟨h2, h3⟩ h1⟩
      obtain ⟨h1, h2, h3⟩ := ih b hb0.1
      refine ⟨h1, dbl_le_trans h2 hb0.2.1, ?_⟩
      intro j hj hj1 hj2
      rcases List.mem_cons.mp hj with rfl | hj
      · exact dbl_le_trans h2 (hb0.2.2 hj1 hj2)
      · exact h3 j hj hj1 hj2
  obtain ⟨h1, h2, h3⟩ := key (List.finRange n) 1 dbl_zero_le_one
  exact ⟨h1, h2, fun i => h3 i (List.mem_finRange i)⟩

theorem value_pos_sign {s : Bool} {m : Mag} (h : 0 < value s m) : s = false := by
  cases s
  · rfl
  · simp [value] at h; linarith [mag_nonneg m]

theorem value_neg_sign {s : Bool} {m : Mag} (h : value s m < 0) : s = true := by
  cases s
  · simp [value] at h; linarith [mag_nonneg m]
  · rfl

/-- A rational below a finite double rounds to a finite double. -/
theorem mk_finite_of_le (s : Bool) {q : ℚ} {m : Mag} (h0 : 0 ≤ q) (h : q ≤ m.1) :
    ∃ m' : Mag, mk s q = .fin s m' ∧ m'.1 = roundMag q ∧ m'.1 ≤ m.1 := by
  have h1 : roundMag q ≤ m.1 := by rw [← roundMag_mag m]; exact roundMag_mono h0 h
  have h2 : 0 ≤ q ∧ roundMag q < pow2 1024 := ⟨h0, lt_of_le_of_lt h1 m.2.2⟩
  refine ⟨⟨roundMag q, roundMag_rep h2.1, h2.2⟩, ?_, rfl, h1⟩
  unfold mk
  rw [dif_pos h2]

theorem tau_value : ∃ m : Mag, (tauStep : Dbl L) = F64.fin false m ∧ 0 ≤ m.1 ∧ m.1 ≤ 996 / 1000 := by
  have h : ∃ m : Mag, F64.round false (995 / 1000) = F64.fin false m := by
    unfold F64.round
    rw [if_neg (by norm_num), abs_of_pos (by norm_num)]
    have : decide ((995 / 1000 : ℚ) < 0) = false := by norm_num
    rw [this]
    obtain ⟨m, hm, -⟩ := mk_finite_of_le false (q := 995 / 1000) (m := oneMag) (by norm_num)
      (by show (995 / 1000 : ℚ) ≤ 1; norm_num)
    exact ⟨m, hm⟩
  obtain ⟨m, hm⟩ := h
  refine ⟨m, hm, mag_nonneg m, ?_⟩
  have : (F64.le (F64.round false (995 / 1000)) (F64.round false (996 / 1000)) = true ∧
    F64.lt (F64.round false (995 / 1000)) (F64.round false (9955 / 10000)) = true) := by decide +kernel
  have h1 : roundMag (995 / 1000) ≤ 996 / 1000 := by
    have := abs_le.mp (roundMag_err (q := 995 / 1000) (by norm_num))
    have h2 : max ((995 / 1000 : ℚ) * pow2 (-53)) (pow2 (-1075)) ≤ 1 / 1000 := by
      apply max_le
      · have : pow2 (-53) ≤ 1 / 1000 := by decide +kernel
        linarith
      · decide +kernel
    linarith [this.2]
  unfold F64.round at hm
  rw [if_neg (by norm_num), abs_of_pos (by norm_num)] at hm
  obtain ⟨-, -, h3⟩ := mk_fin hm
  rw [h3]; exact h1

/-- What a step does to one coordinate: a positive number `v`, a change `d`, a step size `al` in `[0, 1]` that is at
most the limit computed for this coordinate when the full step would reach zero. -/
theorem step_positive {v dv al t : Mag} {sd sa : Bool} (hv : pow2 (-1000) ≤ v.1)
    (hd : dv.1 ≤ pow2 1000 * v.1) (ht : t.1 ≤ 996 / 1000)
    (ha0 : 0 ≤ value sa al) (ha1 : value sa al ≤ 1)
    (hlim : value false v + value sd dv ≤ 0 →
      F64.le (.fin sa al) (div (mul (.fin true t) (.fin false v)) (.fin sd dv)) = true) :
    F64.lt (zero false) (add (.fin false v) (mul (.fin sd dv) (.fin sa al))) = true := by
  have hv0 : 0 < v.1 := (pow2_pos _).trans_le hv
  have hal : al.1 ≤ 1 ∧ 0 ≤ al.1 := by
    have := value_abs sa al
    rw [abs_of_nonneg ha0] at this
    exact ⟨by linarith, mag_nonneg al⟩
  have hav : value sa al = al.1 := by rw [← value_abs sa al, abs_of_nonneg ha0]
  have hdn := mag_nonneg dv
  -- the product is finite
  obtain ⟨w, hw, hwr, hwd⟩ := mk_finite_of_le (sd != sa) (q := dv.1 * al.1) (m := dv) (mul_nonneg hdn hal.2)
    (by nlinarith)
  have hmul : mul (.fin sd dv) (.fin sa al) = .fin (sd != sa) w := hw
  rw [hmul]
  have hsum : 0 < value false v + value (sd != sa) w → F64.lt (zero false) (add (.fin false v) (.fin (sd != sa) w)) = true := by
    intro hp
    obtain ⟨k, hk⟩ := value_grid false v
    obtain ⟨l, hl⟩ := value_grid (sd != sa) w
    have he : value false v + value (sd != sa) w = ((k + l : Int) : ℚ) * pow2 (-1074) := by
      rw [hk, hl]; push_cast; ring
    have := grid_abs (he ▸ hp.ne')
    rw [← he, abs_of_pos hp] at this
    exact round_pos _ this
  apply hsum
  have hvv : value false v = v.1 := rfl
  rw [hvv] at hlim ⊢
  -- only a negative product matters
  by_cases hneg : value (sd != sa) w < 0
  · have hs := value_neg_sign hneg
    rw [hs] at hneg ⊢
    have hww : value true w = -w.1 := rfl
    rw [hww] at hneg ⊢
    have hw0 : 0 < w.1 := by linarith
    have hal0 : al.1 ≠ 0 := by
      intro h0
      rw [h0, mul_zero, roundMag_zero] at hwr
      linarith
    have hsa : sa = false := by
      apply value_pos_sign (m := al)
      rw [hav]; exact lt_of_le_of_ne hal.2 (Ne.symm hal0)
    have hsd : sd = true := by rw [hsa] at hs; cases sd <;> simp at hs ⊢
    subst hsa; subst hsd
    have hdd : value true dv = -dv.1 := rfl
    rw [hdd] at hlim
    by_cases hfull : v.1 + -dv.1 ≤ 0
    · have hl := hlim hfull
      have hd0 : 0 < dv.1 := by linarith
      have htn := mag_nonneg t
      -- first product
      obtain ⟨a, hA, hAr, -⟩ := mk_finite_of_le true (q := t.1 * v.1) (m := v) (mul_nonneg htn hv0.le)
        (by nlinarith)
      have hm1 : mul (.fin true t) (.fin false v) = .fin true a := hA
      rw [hm1] at hl
      have hdne : ¬ dv.1 = 0 := hd0.ne'
      have hdiv : div (.fin true a) (.fin true dv) = mk false (a.1 / dv.1) := by
        simp only [div, if_neg hdne]; rfl
      rw [hdiv] at hl
      -- bounds
      have p75 : pow2 (-1075) ≤ pow2 (-75) * v.1 := by
        calc pow2 (-1075) = pow2 (-75) * pow2 (-1000) := by rw [← pow2_add]; norm_num
          _ ≤ _ := mul_le_mul_of_nonneg_left hv (pow2_pos _).le
      have c75 : pow2 (-75) ≤ 1 / 10000 := by decide +kernel
      have c53 : pow2 (-53) ≤ 1 / 10000 := by decide +kernel
      have c53p := pow2_pos (-53)
      have hA1 : a.1 ≤ 997 / 1000 * v.1 := by
        rw [hAr]
        rcases (mul_nonneg htn hv0.le).eq_or_lt with h0 | hpos
        · rw [← h0, roundMag_zero]; positivity
        · have h1 := (abs_le.mp (roundMag_err hpos)).2
          have h2 : max (t.1 * v.1 * pow2 (-53)) (pow2 (-1075)) ≤ 1 / 10000 * v.1 := by
            apply max_le
            · calc t.1 * v.1 * pow2 (-53) ≤ 1 * v.1 * (1 / 10000) := by
                    apply mul_le_mul _ c53 c53p.le (by linarith)
                    exact mul_le_mul_of_nonneg_right (by linarith) hv0.le
                _ = _ := by ring
            · exact p75.trans (mul_le_mul_of_nonneg_right c75 hv0.le)
          nlinarith
      have han := mag_nonneg a
      have hC : dv.1 * al.1 ≤ 998 / 1000 * v.1 := by
        have hq : 0 ≤ a.1 / dv.1 := div_nonneg han hd0.le
        obtain ⟨c, hc, hcr, -⟩ := mk_finite_of_le false (q := a.1 / dv.1) (m := oneMag) hq
          (by show a.1 / dv.1 ≤ 1; rw [div_le_one hd0]; linarith)
        rw [hc] at hl
        have hlc : al.1 ≤ c.1 := by simpa [le, value] using hl
        have hcb : dv.1 * c.1 ≤ 998 / 1000 * v.1 := by
          rw [hcr]
          rcases hq.eq_or_lt with h0 | hpos
          · rw [← h0, roundMag_zero, mul_zero]; positivity
          · have h1 := (abs_le.mp (roundMag_err hpos)).2
            have h2 : roundMag (a.1 / dv.1) ≤ a.1 / dv.1 + (a.1 / dv.1 * pow2 (-53) + pow2 (-1075)) := by
              have : max (a.1 / dv.1 * pow2 (-53)) (pow2 (-1075)) ≤ a.1 / dv.1 * pow2 (-53) + pow2 (-1075) := by
                apply max_le
                · linarith [pow2_pos (-1075)]
                · have := mul_nonneg hq c53p.le; linarith
              linarith
            have h3 : dv.1 * (a.1 / dv.1) = a.1 := by field_simp
            have h4 : dv.1 * pow2 (-1075) ≤ pow2 (-75) * v.1 := by
              calc dv.1 * pow2 (-1075) ≤ pow2 1000 * v.1 * pow2 (-1075) :=
                    mul_le_mul_of_nonneg_right hd (pow2_pos _).le
                _ = (pow2 1000 * pow2 (-1075)) * v.1 := by ring
                _ = pow2 (-75) * v.1 := by rw [← pow2_add]; norm_num
            calc dv.1 * roundMag (a.1 / dv.1)
                ≤ dv.1 * (a.1 / dv.1 + (a.1 / dv.1 * pow2 (-53) + pow2 (-1075))) :=
                  mul_le_mul_of_nonneg_left h2 hd0.le
              _ = dv.1 * (a.1 / dv.1) + dv.1 * (a.1 / dv.1) * pow2 (-53) + dv.1 * pow2 (-1075) := by ring
              _ = a.1 + a.1 * pow2 (-53) + dv.1 * pow2 (-1075) := by rw [h3]
              _ ≤ 998 / 1000 * v.1 := by nlinarith
        exact (mul_le_mul_of_nonneg_left hlc hd0.le).trans hcb
      have hwb : w.1 ≤ 999 / 1000 * v.1 := by
        rw [hwr]
        rcases (mul_nonneg hdn hal.2).eq_or_lt with h0 | hpos
        · rw [← h0, roundMag_zero]; positivity
        · have h1 := (abs_le.mp (roundMag_err hpos)).2
          have h2 : max (dv.1 * al.1 * pow2 (-53)) (pow2 (-1075)) ≤ 1 / 10000 * v.1 := by
            apply max_le
            · calc dv.1 * al.1 * pow2 (-53) ≤ v.1 * (1 / 10000) :=
                    mul_le_mul (by linarith) c53 c53p.le hv0.le
                _ = _ := by ring
            · exact p75.trans (mul_le_mul_of_nonneg_right c75 hv0.le)
          linarith
      linarith
    · linarith
  · linarith [not_lt.mp hneg]

/-- A value and its change are away from overflow and underflow: both finite, the value at least `2^-1000`, the change
at most `2^1000` times the value. -/
def StepSafe (v dv : Dbl L) : Prop :=
  Dbl.Finite v ∧ Dbl.Finite dv ∧ pow2 (-1000) ≤ toRat v ∧ |toRat dv| ≤ pow2 1000 * toRat v

theorem abs_pos_of_add_nonpos {v dv : Mag} {sd : Bool} (hv : 0 < v.1) (h : value false v + value sd dv ≤ 0) :
    F64.lt (zero false) (F64.abs (.fin sd dv)) = true := by
  have : value sd dv < 0 := by have : value false v = v.1 := rfl; linarith
  have h2 := value_abs sd dv
  rw [abs_of_neg this] at h2
  show F64.lt (zero false) (.fin false dv) = true
  rw [zero_lt_fin]
  show 0 < dv.1
  linarith

/-- The step length loop on doubles: every coordinate that is safe stays strictly positive. -/
theorem alphaLoop_positive {n : Nat} (val dv : Fin n → Dbl L) (h : ∀ i, StepSafe (val i) (dv i)) (i : Fin n) :
    0 < val i + dv i * alphaLoop val dv tauStep := by
  obtain ⟨t, ht, ht0, ht1⟩ := tau_value (L := L)
  have shape : ∀ j, ∃ (v d : Mag) (sd : Bool), val j = F64.fin false v ∧ dv j = F64.fin sd d ∧
      pow2 (-1000) ≤ v.1 ∧ d.1 ≤ pow2 1000 * v.1 := by
    intro j
    obtain ⟨h1, h2, h3, h4⟩ := h j
    obtain ⟨s, v, hv⟩ := F64.isFinite_iff.mp h1
    obtain ⟨sd, d, hd⟩ := F64.isFinite_iff.mp h2
    rw [hv] at h3 h4
    rw [hd] at h4
    have h3' : pow2 (-1000) ≤ value s v := h3
    have hs : s = false := value_pos_sign (m := v) ((pow2_pos _).trans_le h3')
    subst hs
    have h4' : |value sd d| ≤ pow2 1000 * v.1 := h4
    rw [value_abs] at h4'
    exact ⟨v, d, sd, hv, hd, h3', h4'⟩
  have hneg : (-(tauStep : Dbl L)) = F64.fin true t := by rw [ht]; rfl
  -- the sum test is exact
  have sumtest : ∀ (v d : Mag) (sd : Bool), F64.le (add (.fin false v) (.fin sd d)) (zero false) = true ↔
      value false v + value sd d ≤ 0 := by
    intro v d sd
    constructor
    · intro hle
      by_contra hc
      obtain ⟨k, hk⟩ := value_grid false v
      obtain ⟨l, hl⟩ := value_grid sd d
      have he : value false v + value sd d = ((k + l : Int) : ℚ) * pow2 (-1074) := by rw [hk, hl]; push_cast; ring
      have hp : 0 < value false v + value sd d := not_le.mp hc
      have hg := grid_abs (he ▸ hp.ne')
      rw [← he, abs_of_pos hp] at hg
      have h2 : F64.lt (zero false) (add (.fin false v) (.fin sd d)) = true := round_pos _ hg
      have h3 := F64.lt_of_lt_of_le h2 hle
      rw [F64.lt_irrefl] at h3; cases h3
    · intro hle
      exact round_nonpos _ hle
  have hcand : ∀ j, val j + dv j ≤ 0 → 0 < Scalar.abs (dv j) → 0 ≤ -tauStep * val j / dv j := by
    intro j hj1 hj2
    obtain ⟨v, d, sd, hv, hd, h3, h4⟩ := shape j
    have hv0 : 0 < v.1 := (pow2_pos _).trans_le h3
    rw [hneg, hv, hd]
    rw [hv, hd] at hj1
    have hsum := (sumtest v d sd).mp hj1
    have hvv : value false v = v.1 := rfl
    have hsd : sd = true := value_neg_sign (m := d) (by linarith)
    subst hsd
    have hdd : value true d = -d.1 := rfl
    obtain ⟨a, hA, -, -⟩ := mk_finite_of_le true (q := t.1 * v.1) (m := v) (mul_nonneg ht0 hv0.le) (by nlinarith)
    have hm1 : mul (.fin true t) (.fin false v) = .fin true a := hA
    show F64.le (zero false) (div (mul (.fin true t) (.fin false v)) (.fin true d)) = true
    rw [hm1]
    have hdne : ¬ d.1 = 0 := by intro h0; rw [hdd] at hsum; linarith
    simp only [div, if_neg hdne]
    exact mk_nonneg _
  obtain ⟨h0, h1, hle⟩ := alphaLoop_bounds val dv tauStep hcand
  obtain ⟨sa, al, hal⟩ := F64.isFinite_iff.mp
    (dbl_between (L := L) (lo := 0) (hi := 1) rfl (by rw [dbl_one]; rfl) h0 h1)
  obtain ⟨v, d, sd, hv, hd, h3, h4⟩ := shape i
  have hv0 : 0 < v.1 := (pow2_pos _).trans_le h3
  have hlim := hle i
  rw [hal] at h0 h1 hlim ⊢
  rw [hv, hd] at hlim ⊢
  rw [hneg] at hlim
  rw [dbl_one] at h1
  refine step_positive (v := v) (dv := d) (al := al) (t := t) h3 h4 ht1 (zero_le_fin.mp h0) ?_ ?_
  · have : value sa al ≤ value false oneMag := by
      have h1' : F64.le (.fin sa al) (.fin false oneMag) = true := h1
      simpa [le] using h1'
    exact this
  · intro hsum
    exact hlim ((sumtest v d sd).mpr hsum) (abs_pos_of_add_nonpos hv0 hsum)

/-- **C07** in binary64, one iteration. If before the iteration every slack and every multiplier is at least `2^-1000`,
and the changes computed by the linear solver - whatever they are - are finite and at most `2^1000` times as large, then
after the iteration all are again strictly positive, although the step length and the update are computed with
rounding. Missing compared with `C07_slacks_positive`: nothing keeps a whole run away from underflow. -/
theorem C07_double_step {N M K : Nat} (E : Eigen N K (Dbl L)) (p : QP N M K (Dbl L)) (mu : Dbl L)
    (strategy : BarrierStrategy) (st st' : IPState N M K (Dbl L)) (out : IPIterationOutputs (Dbl L))
    (h : iterate E p mu strategy st = .ok (st', out))
    (hs : ∀ m, StepSafe (st.v.s m) (st'.delta.s m)) (hz : ∀ m, StepSafe (st.v.z m) (st'.delta.z m)) :
    ∀ m, 0 < st'.v.s m ∧ 0 < st'.v.z m := by
  obtain ⟨st1, h1, h2, h3, -⟩ := iterate_ok h
  obtain ⟨hv, -⟩ := direction_fields p mu strategy st1
  have hv1 : st1.v = st.v := by
    have := (computeLDLT_ok h1).2.2
    rw [this]; exact evaluateKKT_v' p true st
  intro m
  have hM : 0 < M := Nat.lt_of_le_of_lt (Nat.zero_le _) m.isLt
  have hal : out.alpha = computeAlpha (direction p mu strategy st1).1 tauStep := by
    rw [h3]; exact if_pos hM
  rw [hv1] at hv
  rw [h2, hal] at hs hz ⊢
  constructor
  · have := alphaLoop_positive (L := L) st.v.s (direction p mu strategy st1).1.delta.s hs m
    simp only [applyStep, computeAlpha, hv]
    exact this
  · have := alphaLoop_positive (L := L) st.v.z (direction p mu strategy st1).1.delta.z hz m
    simp only [applyStep, computeAlpha, hv]
    exact this

instance (v dv : Dbl L) : Decidable (StepSafe v dv) := by unfold StepSafe; infer_instance

/-- A state with slack and multiplier 1. -/
def demoState : IPState 1 1 0 DemoF64.D64 :=
  { DemoF64.zero1 1 with v := ⟨fun _ => DemoF64.d 3, fun _ => 1, fun _ => 0, fun _ => 1⟩ }

/-- Non-vacuity: a real iteration in binary64 whose changes are safe. -/
example : ∃ st' out, iterate DemoF64.inv1 DemoF64.qp1 (DemoF64.d (1 / 2)) .complementarity demoState = .ok (st', out) ∧
    (∀ m, StepSafe (demoState.v.s m) (st'.delta.s m)) ∧ ∀ m, StepSafe (demoState.v.z m) (st'.delta.z m) := by
  have h : (match iterate DemoF64.inv1 DemoF64.qp1 (DemoF64.d (1 / 2)) .complementarity demoState with
    | .ok (st', _) => decide ((∀ m, StepSafe (demoState.v.s m) (st'.delta.s m)) ∧
        ∀ m, StepSafe (demoState.v.z m) (st'.delta.z m))
    | .error _ => false) = true := by decide +kernel
  split at h
  · rename_i st' out hi
    exact ⟨st', out, hi, of_decide_eq_true h⟩
  · cases h

/-- **C07** (limit of the claim in binary64). With the smallest positive slack the rule `0.995` is rounded away: a full
step `-s` is accepted with `alpha = 1` and the new slack is exactly zero, which trips the assertion
"slack variables s <= 0" of the next iteration. -/
theorem C07_double_underflow : ∃ s ds : Dbl L, 0 < s ∧ Dbl.Finite s ∧ Dbl.Finite ds ∧
    alphaLoop (fun _ : Fin 1 => s) (fun _ => ds) tauStep = 1 ∧
    ¬ 0 < s + ds * alphaLoop (fun _ : Fin 1 => s) (fun _ => ds) tauStep := by
  refine ⟨toDbl L (F64.round false (pow2 (-1074))), toDbl L (F64.neg (F64.round false (pow2 (-1074)))), ?_, ?_, ?_, ?_⟩
  · show F64.lt (zero false) (F64.round false (pow2 (-1074))) = true; decide +kernel
  · show F64.isFinite (F64.round false (pow2 (-1074))) = true; decide +kernel
  · show F64.isFinite (F64.neg (F64.round false (pow2 (-1074)))) = true; decide +kernel
  have ha : alphaLoop (fun _ : Fin 1 => toDbl L (F64.round false (pow2 (-1074))))
      (fun _ => toDbl L (F64.neg (F64.round false (pow2 (-1074))))) tauStep = 1 := by
    unfold alphaLoop
    have hl : List.finRange 1 = [0] := rfl
    rw [hl]
    simp only [List.foldl_cons, List.foldl_nil]
    have hnl : ¬ (-(tauStep : Dbl L) * toDbl L (F64.round false (pow2 (-1074))) /
        toDbl L (F64.neg (F64.round false (pow2 (-1074)))) < 1) := by
      show ¬ (F64.lt (div (mul (F64.neg (F64.round false (995 / 1000))) (F64.round false (pow2 (-1074))))
        (F64.neg (F64.round false (pow2 (-1074))))) (F64.round false 1) = true)
      decide +kernel
    rw [if_neg hnl, ite_self]
  refine ⟨ha, ?_⟩
  rw [ha]
  show ¬ (F64.lt (zero false) (add (F64.round false (pow2 (-1074)))
    (mul (F64.neg (F64.round false (pow2 (-1074)))) (F64.round false 1))) = true)
  decide +kernel

end MiniOpt.Props
