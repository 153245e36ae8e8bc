import Verif.Lemmas.LDLTResidual
import Verif.Props.EigenLDLT
import Verif.Props.DoubleConstraints
import Verif.Lemmas.DemoF64

/-!
# C117: rounding errors of the linear solves

The factorisation `Eigen::LDLT` as called at `/repo/source/qp.cc:302-311` and the use of the inverse at `qp.cc:345-355` and
`qp.cc:378-384`, every operation rounded to a double and sums in whatever order. The bounds are those of the usual
componentwise analysis: relative to `|L| |D| |Lᵀ|`, whose size nothing controls when the matrix is not positive definite, and
which is of the size of the matrix when it is. What is assumed is only that nothing overflowed.
-/

set_option autoImplicit false

namespace MiniOpt.Props

open MiniOpt MiniOpt.Spec MiniOpt.F64

variable {L : Libm} {ι : Type} [DecidableEq ι] [Fintype ι] {N M K : Nat}

omit [DecidableEq ι] [Fintype ι] in
theorem pivot_pos {cutoff : Dbl L} (h0 : 0 ≤ cutoff) {D : ι → Dbl L} (h : ∀ i, cutoff < Scalar.abs (D i)) (i : ι) :
    0 < Scalar.abs (D i) := F64.lt_of_le_of_lt h0 (h i)

theorem pivot_ne {d : Dbl L} (hf : Dbl.Finite d) (h : 0 < Scalar.abs d) : realVal d ≠ 0 := by
  intro h0
  rw [realVal_eq] at h0
  obtain ⟨s, m, rfl⟩ := F64.isFinite_iff.mp hf
  have h1 : F64.lt (F64.zero false) (F64.abs (.fin s m)) = true := h
  have h2 : (0 : ℚ) < m.1 := by
    have := of_decide_eq_true (p := value false ⟨0, isMag_zero⟩ < value false m) h1
    simpa [value] using this
  have h3 : ((value s m : ℚ) : ℝ) = 0 := h0
  have h4 : value s m = 0 := by exact_mod_cast h3
  cases s <;> simp [value] at h4 <;> linarith

/-- The finite factorisation behind a finite solution. -/
theorem solve_parts (hL : AddsUp L) (H : ι → ι → Dbl L) {rows : List ι} (hn : rows.Nodup) (hall : ∀ i, i ∈ rows)
    {cutoff : Dbl L} (h0 : 0 ≤ cutoff) (hD : ∀ i, Dbl.Finite ((LDLT.factorize H rows).D i))
    (hc : ∀ i, cutoff < Scalar.abs ((LDLT.factorize H rows).D i)) (b : ι → Dbl L)
    (hx : ∀ i, Dbl.Finite ((LDLT.factorize H rows).solve cutoff b i)) :
    LDLT.Computed (LDLT.factorize H rows) H ∧ (∀ i, realVal ((LDLT.factorize H rows).D i) ≠ 0) ∧
    (∀ i j, IsFin ((LDLT.factorize H rows).L i j)) := by
  have hcomp := LDLT.computed H hn hall (pivot_pos h0 hc)
  refine ⟨hcomp, fun i => pivot_ne (hD i) (pivot_pos h0 hc i), ?_⟩
  unfold LDLT.Fact.solve at hx
  exact (hcomp.backward hL _ hx).2.1

/-- **C117** (the factors). When a system has been solved without overflow, the product of the computed factors differs from
the matrix by rounding errors only. -/
theorem C117_factors (hL : AddsUp L) (H : ι → ι → Dbl L) (hs : ∀ i j, H i j = H j i) (rows : List ι) (hn : rows.Nodup)
    (hall : ∀ i, i ∈ rows) (cutoff : Dbl L) (h0 : 0 ≤ cutoff) (hD : ∀ i, Dbl.Finite ((LDLT.factorize H rows).D i))
    (hc : ∀ i, cutoff < Scalar.abs ((LDLT.factorize H rows).D i)) (b : ι → Dbl L)
    (hx : ∀ i, Dbl.Finite ((LDLT.factorize H rows).solve cutoff b i)) (i j : ι) :
    |realVal (H i j) - factorProduct (LDLT.factorize H rows) i j| ≤
      (ldltGrowth ι - 1) * factorMagnitude (LDLT.factorize H rows) i j + factorUnderflow (LDLT.factorize H rows) i j := by
  obtain ⟨h1, h2, h3⟩ := solve_parts hL H hn hall h0 hD hc b hx
  exact h1.entries hL hD h2 h3 hs i j

theorem growth_one : 1 ≤ ldltGrowth ι := grow_pos _

/-- **C117** (a linear solve). The computed solution `x` of `H x = b` satisfies the equations up to
`((1 + u)^(4 n + 16) - 1) (|L| |D| |Lᵀ| |x|)` and underflow, row by row. -/
theorem C117_solve (hL : AddsUp L) (H : ι → ι → Dbl L) (hs : ∀ i j, H i j = H j i) (rows : List ι) (hn : rows.Nodup)
    (hall : ∀ i, i ∈ rows) (cutoff : Dbl L) (h0 : 0 ≤ cutoff) (hD : ∀ i, Dbl.Finite ((LDLT.factorize H rows).D i))
    (hc : ∀ i, cutoff < Scalar.abs ((LDLT.factorize H rows).D i)) (b : ι → Dbl L)
    (hx : ∀ i, Dbl.Finite ((LDLT.factorize H rows).solve cutoff b i)) (i : ι) :
    |∑ j, realVal (H i j) * realVal ((LDLT.factorize H rows).solve cutoff b j) - realVal (b i)| ≤
      solveResidual (LDLT.factorize H rows) (fun j => realVal ((LDLT.factorize H rows).solve cutoff b j)) i := by
  obtain ⟨h1, h2, h3⟩ := solve_parts hL H hn hall h0 hD hc b hx
  set f := LDLT.factorize H rows
  have hE := h1.entries hL hD h2 h3 hs
  unfold LDLT.Fact.solve at hx ⊢
  set y := LDLT.substitute f.L b [] f.done (fun _ => 0)
  set z : ι → Dbl L := fun i => if cutoff < Scalar.abs (f.D i) then y i / f.D i else 0 with hz
  set x := LDLT.substitute (fun i j => f.L j i) z [] f.done.reverse (fun _ => 0)
  obtain ⟨hzf, -, hback⟩ := h1.backward hL z hx
  have hzd : ∀ i, z i = F64.div (y i) (f.D i) := fun i => if_pos (hc i)
  have hdiv : ∀ i, Fin' (y i) ∧ _ := fun i => div_err (x := y i) (hD i) (by rw [← realVal_eq]; exact h2 i) (by rw [← hzd i]; exact hzf i)
  have hforw := h1.forward hL b fun i => (hdiv i).1
  have hw := growth_one (ι := ι)
  have hη := under_pos
  have hmid : ∀ l, |realVal (f.D l) * realVal (z l) - realVal (y l)| ≤
      (ldltGrowth ι - 1) * |realVal (f.D l) * realVal (z l)| + (ldltGrowth ι * underflow) * |realVal (f.D l)| := by
    intro l
    have := relative_back hη.le (hdiv l).2
    have e1 : fval (F64.div (y l) (f.D l)) = realVal (z l) := by rw [realVal_eq, hzd l]
    rw [e1, ← realVal_eq, ← realVal_eq] at this
    have hd := h2 l
    set d := realVal (f.D l)
    set q := realVal (z l)
    have e2 : d * q - realVal (y l) = (q - realVal (y l) / d) * d := by field_simp
    rw [e2, abs_mul, abs_mul]
    have g := mul_le_mul_of_nonneg_right this (abs_nonneg d)
    have w2 : (1 + unitRoundoff) ^ 2 ≤ ldltGrowth ι := LDLT.grow_mono (by omega)
    have g1 := mul_le_mul_of_nonneg_right w2 (mul_nonneg (abs_nonneg d) (abs_nonneg q))
    have g2 := mul_le_mul_of_nonneg_right w2 (mul_nonneg hη.le (abs_nonneg d))
    linarith
  refine (LDLT.residual_combine (fun i j => realVal (H i j)) (lowerEntry f) (fun l => realVal (f.D l)) (fun l => realVal (b l))
    (fun l => realVal (x l)) (fun l => realVal (y l)) (fun l => realVal (z l)) (factorUnderflow f) (ldltGrowth ι)
    (ldltGrowth ι * underflow) (Fintype.card ι * ldltGrowth ι * underflow) hw (mul_nonneg (by linarith) hη.le)
    (mul_nonneg (mul_nonneg (Nat.cast_nonneg _) (by linarith)) hη.le) hE hforw hmid hback i).trans ?_
  unfold solveResidual factorMagnitude
  have hR : 0 ≤ ∑ l, |lowerEntry f i l| * |realVal (f.D l)| := Finset.sum_nonneg fun l _ => mul_nonneg (abs_nonneg _) (abs_nonneg _)
  have hw2 : ldltGrowth ι ^ 2 ≤ ldltGrowth ι ^ 3 := pow_le_pow_right₀ hw (by norm_num)
  have g := mul_le_mul_of_nonneg_right hw2 (mul_nonneg hη.le hR)
  generalize ∑ l, |lowerEntry f i l| * |realVal (f.D l)| = R at *
  generalize ldltGrowth ι = w at *
  nlinarith

/-- **C117** (the constant). For up to `2^48` rows the relative errors are at most `8 (n + 4) 2^-53` for a linear solve, and
`2 (n + 4) 2^-53` for the factors. -/
theorem C117_constant (h : Fintype.card ι ≤ 2 ^ 48) :
    ldltGrowth ι ^ 4 - 1 ≤ 8 * (Fintype.card ι + 4) * (2 : ℝ) ^ (-53 : ℤ) ∧
    ldltGrowth ι - 1 ≤ 2 * (Fintype.card ι + 4) * (2 : ℝ) ^ (-53 : ℤ) := by
  have hb : ∀ m : Nat, (m : ℝ) ≤ 2 ^ 52 → (1 + unitRoundoff) ^ m - 1 ≤ 2 * m * unitRoundoff := by
    intro m hm
    have hu := unit_pos
    have hu1 := unit_lt
    have h1 : 1 + (m : ℝ) * (-unitRoundoff) ≤ (1 + -unitRoundoff) ^ m := one_add_mul_le_pow (by linarith) m
    have h2 : (1 + unitRoundoff) ^ m * (1 + -unitRoundoff) ^ m ≤ 1 := by
      rw [← mul_pow]
      exact pow_le_one₀ (mul_nonneg (by linarith) (by linarith)) (by nlinarith)
    have h3 : (m : ℝ) * unitRoundoff ≤ 1 / 2 := by
      have : unitRoundoff * 2 ^ 52 = 1 / 2 := by unfold unitRoundoff; norm_num
      nlinarith
    have h4 := grow_pos m
    have h5 := mul_le_mul_of_nonneg_left h1 (by linarith : 0 ≤ (1 + unitRoundoff) ^ m)
    have h6 : 0 ≤ (m : ℝ) * unitRoundoff := mul_nonneg (Nat.cast_nonneg _) hu.le
    generalize (1 + unitRoundoff) ^ m = w at *
    generalize (1 + -unitRoundoff) ^ m = v at *
    generalize hq : (m : ℝ) * unitRoundoff = q at *
    have h7 : w * (1 - q) ≤ 1 := by
      have : 1 + (m : ℝ) * -unitRoundoff = 1 - q := by rw [← hq]; ring
      rw [this] at h5
      linarith
    have h8 : w ≤ 2 := by nlinarith
    nlinarith
  have hcard : (Fintype.card ι : ℝ) ≤ 2 ^ 48 := by exact_mod_cast h
  refine ⟨?_, ?_⟩
  · have := hb (4 * (Fintype.card ι + 4)) (by push_cast; nlinarith)
    unfold ldltGrowth
    rw [← pow_mul, Nat.mul_comm]
    refine this.trans (le_of_eq ?_)
    unfold unitRoundoff
    push_cast
    ring
  · have := hb (Fintype.card ι + 4) (by push_cast; nlinarith)
    unfold ldltGrowth
    refine this.trans (le_of_eq ?_)
    unfold unitRoundoff
    push_cast
    ring

/-- **C117** (positive pivots). When all computed pivots are positive, `|L| |D| |Lᵀ|` is no larger than the matrix allows:
no entry exceeds the geometric mean of two diagonal entries by more than rounding. -/
theorem C117_no_growth (hL : AddsUp L) (H : ι → ι → Dbl L) (hs : ∀ i j, H i j = H j i) (rows : List ι) (hn : rows.Nodup)
    (hall : ∀ i, i ∈ rows) (cutoff : Dbl L) (h0 : 0 ≤ cutoff) (hD : ∀ i, Dbl.Finite ((LDLT.factorize H rows).D i))
    (hc : ∀ i, cutoff < Scalar.abs ((LDLT.factorize H rows).D i)) (b : ι → Dbl L)
    (hx : ∀ i, Dbl.Finite ((LDLT.factorize H rows).solve cutoff b i))
    (hpos : ∀ i, 0 < realVal ((LDLT.factorize H rows).D i)) (hw : ldltGrowth ι < 2) (i j : ι) :
    factorMagnitude (LDLT.factorize H rows) i j ≤
      Real.sqrt ((realVal (H i i) + factorUnderflow (LDLT.factorize H rows) i i)
        * (realVal (H j j) + factorUnderflow (LDLT.factorize H rows) j j)) / (2 - ldltGrowth ι) := by
  have hF := fun i => C117_factors hL H hs rows hn hall cutoff h0 hD hc b hx i i
  set f := LDLT.factorize H rows
  have hdiag : ∀ i, factorProduct f i i = factorMagnitude f i i := fun i => by
    unfold factorProduct factorMagnitude
    refine Finset.sum_congr rfl fun l _ => ?_
    rw [abs_of_pos (hpos l)]
    calc lowerEntry f i l * (realVal (f.D l) * lowerEntry f i l) = realVal (f.D l) * (lowerEntry f i l * lowerEntry f i l) := by ring
      _ = realVal (f.D l) * (|lowerEntry f i l| * |lowerEntry f i l|) := by rw [abs_mul_abs_self]
      _ = _ := by ring
  have hM0 : ∀ i j, 0 ≤ factorMagnitude f i j := fun i j =>
    Finset.sum_nonneg fun l _ => mul_nonneg (abs_nonneg _) (mul_nonneg (abs_nonneg _) (abs_nonneg _))
  have hM : ∀ i, factorMagnitude f i i ≤ (realVal (H i i) + factorUnderflow f i i) / (2 - ldltGrowth ι) := fun i => by
    have := (abs_le.mp (hF i)).1
    rw [hdiag] at this
    rw [le_div_iff₀ (by linarith)]
    linarith
  have hcs : factorMagnitude f i j ^ 2 ≤ factorMagnitude f i i * factorMagnitude f j j := by
    have := Finset.sum_mul_sq_le_sq_mul_sq Finset.univ (fun l => |lowerEntry f i l| * Real.sqrt (realVal (f.D l)))
      (fun l => |lowerEntry f j l| * Real.sqrt (realVal (f.D l)))
    have hsq : ∀ l, Real.sqrt (realVal (f.D l)) * Real.sqrt (realVal (f.D l)) = realVal (f.D l) := fun l =>
      Real.mul_self_sqrt (hpos l).le
    have e1 : ∀ i j, ∑ l, (|lowerEntry f i l| * Real.sqrt (realVal (f.D l))) * (|lowerEntry f j l| * Real.sqrt (realVal (f.D l)))
        = factorMagnitude f i j := fun i j => by
      unfold factorMagnitude
      refine Finset.sum_congr rfl fun l _ => ?_
      rw [abs_of_pos (hpos l), ← hsq l]
      rw [hsq l]
      calc _ = |lowerEntry f i l| * ((Real.sqrt (realVal (f.D l)) * Real.sqrt (realVal (f.D l))) * |lowerEntry f j l|) := by ring
        _ = _ := by rw [hsq l]
    rw [e1] at this
    simp only [sq] at this
    rw [e1, e1] at this
    rw [sq]
    exact this
  have hw2 : 0 < 2 - ldltGrowth ι := by linarith
  rw [le_div_iff₀ hw2]
  refine Real.le_sqrt_of_sq_le ?_
  have a1 := (le_div_iff₀ hw2).mp (hM i)
  have a2 := (le_div_iff₀ hw2).mp (hM j)
  rw [mul_pow]
  calc factorMagnitude f i j ^ 2 * (2 - ldltGrowth ι) ^ 2
      ≤ (factorMagnitude f i i * factorMagnitude f j j) * (2 - ldltGrowth ι) ^ 2 :=
        mul_le_mul_of_nonneg_right hcs (sq_nonneg _)
    _ = (factorMagnitude f i i * (2 - ldltGrowth ι)) * (factorMagnitude f j j * (2 - ldltGrowth ι)) := by ring
    _ ≤ _ := mul_le_mul a1 a2 (mul_nonneg (hM0 j j) hw2.le) ((mul_nonneg (hM0 i i) hw2.le).trans a1)

theorem one_val : realVal (1 : Dbl L) = 1 := by
  have : (1 : Dbl L).toRat = 1 := by
    show @Dbl.toRat L (F64.round false 1) = 1
    have : ∀ x : F64, @Dbl.toRat L x = @Dbl.toRat DemoF64.seqL x := fun x => by cases x <;> rfl
    rw [this]
    decide +kernel
  unfold realVal
  rw [this]
  simp

/-- **C117** (the inverse). Column `c` of the matrix that the interior point solver uses as the inverse of `H`. -/
theorem C117_inverse (hL : AddsUp L) (H X : Red N K → Red N K → Dbl L) (hs : ∀ i j, H i j = H j i) (cutoff : Dbl L)
    (h0 : 0 ≤ cutoff) (hX : (LDLT.eigen N K cutoff).ldltInverse H = some X)
    (hD : ∀ i, Dbl.Finite ((LDLT.factorize H (rowsOf N K)).D i))
    (hc : ∀ i, cutoff < Scalar.abs ((LDLT.factorize H (rowsOf N K)).D i)) (c : Red N K) (hx : ∀ i, Dbl.Finite (X i c)) (i : Red N K) :
    |∑ j, realVal (H i j) * realVal (X j c) - (if i = c then 1 else 0)| ≤
      solveResidual (LDLT.factorize H (rowsOf N K)) (fun j => realVal (X j c)) i := by
  unfold LDLT.eigen at hX
  dsimp only at hX
  split_ifs at hX with hok
  have hX' := Option.some.inj hX
  subst hX'
  have := C117_solve hL H hs (rowsOf N K) (rows_nodup N K) mem_rows cutoff h0 hD hc (fun l => if l = c then 1 else 0) hx i
  have e1 : realVal (if i = c then (1 : Dbl L) else 0) = if i = c then 1 else 0 := by
    split_ifs
    · exact one_val
    · exact LDLT.real_zero
  rwa [e1] at this

/-- A product of the inverse with a vector, computed from one or two scalar products. -/
theorem near_two (hL : AddsUp L) {n m : Nat} (a b : Fin n → Dbl L) (c d : Fin m → Dbl L) (h : Dbl.Finite (dot a b + dot c d)) :
    |realVal (dot a b + dot c d) - ((∑ i, realVal (a i) * realVal (b i)) + ∑ i, realVal (c i) * realVal (d i))| ≤
      slop (n + m + 1) (n + m) ((∑ i, |realVal (a i) * realVal (b i)|) + ∑ i, |realVal (c i) * realVal (d i)|) := by
  obtain ⟨h1, h2⟩ := add_finite (x := (dot a b : Dbl L)) (y := (dot c d : Dbl L)) h
  have := (((near_dot hL a b h1).1.add (near_dot hL c d h2).1 h).weaken (n' := n + m + 1) (m' := n + m) (by omega) le_rfl).err
  rw [realVal_eq]
  exact this

theorem realVal_neg' (x : Dbl L) : realVal (-x) = -realVal x := by
  rw [realVal_eq, realVal_eq]; exact fval_neg x

theorem symRed_symm (H : Red N K → Red N K → Dbl L) (i j : Red N K) : IP.symRed H i j = IP.symRed H j i := by
  rcases i with i | i <;> rcases j with j | j
  · rcases lt_trichotomy i j with h | rfl | h
    · simp [IP.symRed, h.le, not_le.mpr h]
    · rfl
    · simp [IP.symRed, h.le, not_le.mpr h]
  · rfl
  · rfl
  · rcases lt_trichotomy i j with h | rfl | h
    · simp [IP.symRed, h.le, not_le.mpr h]
    · rfl
    · simp [IP.symRed, h.le, not_le.mpr h]

/-- **C117** (the step). The step `(dx, dy)` that the solver computes from the inverse for a right-hand side `(rx, ry)` (as in
`SolveForUpdate` and `SolveForUpdateNoInequalities`) solves the reduced system `H (dx, -dy) = -(rx, ry)` up to the errors of
the columns of the inverse and those of multiplying by it. -/
theorem C117_step (hL : AddsUp L) (cutoff : Dbl L) (h0 : 0 ≤ cutoff) (p : QP N M K (Dbl L)) (incl : Bool)
    (st0 st : IPState N M K (Dbl L)) (hst : IP.computeLDLT (LDLT.eigen N K cutoff) p incl st0 = .ok st)
    (hD : ∀ i, Dbl.Finite ((LDLT.factorize (IP.symRed st.H) (rowsOf N K)).D i))
    (hc : ∀ i, cutoff < Scalar.abs ((LDLT.factorize (IP.symRed st.H) (rowsOf N K)).D i))
    (hX : ∀ i j, Dbl.Finite (st.Hinv i j)) (rx : Fin N → Dbl L)
    (hdx : ∀ i, Dbl.Finite (IP.applyInvX st rx i)) (hdy : ∀ k, Dbl.Finite (IP.applyInvY st rx k)) (i : Red N K) :
    |∑ j, realVal (IP.symRed st.H i j) * Sum.elim (fun j => realVal (IP.applyInvX st rx j)) (fun k => - realVal (IP.applyInvY st rx k)) j
        + Sum.elim (fun j => realVal (rx j)) (fun k => realVal (st.r.y k)) i| ≤
      (∑ c, solveResidual (LDLT.factorize (IP.symRed st.H) (rowsOf N K)) (fun j => realVal (st.Hinv j c)) i
        * |Sum.elim (fun j => realVal (rx j)) (fun k => realVal (st.r.y k)) c|)
      + ∑ j, |realVal (IP.symRed st.H i j)| * slop (N + K + 1) (N + K)
          (∑ c, |realVal (st.Hinv j c) * Sum.elim (fun j => realVal (rx j)) (fun k => realVal (st.r.y k)) c|) := by
  have hinv : (LDLT.eigen N K cutoff).ldltInverse (IP.symRed st.H) = some st.Hinv := by
    obtain ⟨-, h1, h2⟩ := IP.computeLDLT_ok hst
    have : st.H = IP.fillH p incl st0 := by rw [h2]
    rw [this]; exact h1
  have hs : ∀ i j, IP.symRed st.H i j = IP.symRed st.H j i := symRed_symm _
  have hcol := fun c => C117_inverse hL (IP.symRed st.H) st.Hinv hs cutoff h0 hinv hD hc c (fun i => hX i c) i
  set w : Red N K → ℝ := Sum.elim (fun j => realVal (rx j)) (fun k => realVal (st.r.y k)) with hw
  set u : Red N K → ℝ := Sum.elim (fun j => realVal (IP.applyInvX st rx j)) (fun k => - realVal (IP.applyInvY st rx k)) with hu
  have hmul : ∀ j, |u j - -∑ c, realVal (st.Hinv j c) * w c| ≤
      slop (N + K + 1) (N + K) (∑ c, |realVal (st.Hinv j c) * w c|) := by
    intro j
    rw [Fintype.sum_sum_type, Fintype.sum_sum_type]
    rcases j with j | k
    · have hj := hdx j
      simp only [hu, hw, Sum.elim_inl, Sum.elim_inr]
      unfold IP.applyInvX at hj ⊢
      dsimp only at hj ⊢
      split_ifs at hj ⊢ with hK
      · have := near_two hL _ _ _ _ hj
        simp only [realVal_neg', mul_neg, Finset.sum_neg_distrib, abs_neg] at this
        rw [neg_add]
        exact this
      · have hK0 : K = 0 := by omega
        subst hK0
        have := ((near_dot hL _ _ hj).1.weaken (n' := N + 0 + 1) (m' := N + 0) (by omega) (by omega)).err
        simp only [realVal_neg', mul_neg, Finset.sum_neg_distrib, abs_neg] at this
        rw [← realVal_eq] at this
        simpa using this
    · have hk := hdy k
      simp only [hu, hw, Sum.elim_inl, Sum.elim_inr]
      unfold IP.applyInvY at hk ⊢
      rw [if_pos k.pos] at hk ⊢
      have := near_two hL _ _ _ _ hk
      rw [neg_sub_neg, abs_sub_comm]
      exact this
  have hsplit : ∑ j, realVal (IP.symRed st.H i j) * u j + w i
      = (∑ j, realVal (IP.symRed st.H i j) * (u j - -∑ c, realVal (st.Hinv j c) * w c))
        - ∑ c, (∑ j, realVal (IP.symRed st.H i j) * realVal (st.Hinv j c) - (if i = c then 1 else 0)) * w c := by
    have e1 : ∑ c, (∑ j, realVal (IP.symRed st.H i j) * realVal (st.Hinv j c)) * w c
        = ∑ j, realVal (IP.symRed st.H i j) * ∑ c, realVal (st.Hinv j c) * w c := by
      simp only [Finset.sum_mul, Finset.mul_sum]
      rw [Finset.sum_comm]
      exact Finset.sum_congr rfl fun j _ => Finset.sum_congr rfl fun c _ => by ring
    have e2 : ∑ c, (if i = c then (1 : ℝ) else 0) * w c = w i := by simp
    simp only [sub_mul, mul_sub, mul_neg, Finset.sum_sub_distrib, Finset.sum_neg_distrib, e1, e2]
    ring
  rw [hsplit]
  refine (abs_sub _ _).trans ?_
  rw [_root_.add_comm]
  refine add_le_add (LDLT.sum_abs_le _ _ fun c => ?_) (LDLT.sum_abs_le _ _ fun j => ?_)
  · rw [abs_mul]
    exact mul_le_mul_of_nonneg_right (hcol c) (abs_nonneg _)
  · rw [abs_mul]
    exact mul_le_mul_of_nonneg_left (hmul j) (abs_nonneg _)

end MiniOpt.Props
