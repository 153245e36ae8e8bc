import Verif.Spec.RoundOffSpec
import Verif.Lemmas.IEEE
import Verif.Lemmas.F64More
import Mathlib.Data.List.Forall2

/-!
# A calculus of rounding errors
-/

set_option autoImplicit false

namespace MiniOpt.F64

open MiniOpt.Spec

/-- The real number a finite double stands for. -/
noncomputable def fval : F64 → ℝ
  | .fin s m => ((value s m : ℚ) : ℝ)
  | _ => 0

/-- Finite. -/
def Fin' (x : F64) : Prop := isFinite x = true

theorem fval_zero (s : Bool) : fval (zero s) = 0 := by
  show ((value s ⟨0, isMag_zero⟩ : ℚ) : ℝ) = 0
  cases s <;> simp [value]

theorem round_err {nz s : Bool} {q : ℚ} {m : Mag} (h : round nz q = .fin s m) :
    |value s m - q| ≤ max (|q| * pow2 (-53)) (pow2 (-1075)) := by
  unfold round at h
  split_ifs at h with h0
  · subst h0
    have : value s m = 0 := by
      unfold zero at h
      injection h with h1 h2
      subst h1 h2
      cases nz <;> simp [value]
    rw [this, sub_self, abs_zero, zero_mul]
    exact le_max_of_le_right (pow2_pos _).le
  · obtain ⟨h1, h2, h3⟩ := mk_fin h
    have hpos : 0 < |q| := abs_pos.mpr h0
    have := roundMag_err hpos
    rw [← h3] at this
    have e : |value s m - q| = |m.1 - (|q| : ℚ)| := by
      subst h1
      by_cases hq : q < 0
      · simp only [hq, decide_true, value, if_true, abs_of_neg hq]
        rw [show -m.1 - q = -(m.1 - -q) by ring, abs_neg]
      · simp only [hq, decide_false, value, Bool.false_eq_true, if_false, abs_of_nonneg (not_lt.mp hq)]
    rw [e]; exact this

/-- Rounding a number that is a multiple of the smallest subnormal has no underflow error. -/
theorem round_grid_err {nz s : Bool} {q : ℚ} {m : Mag} (h : round nz q = .fin s m) {k : Int} (hk : q = k * pow2 (-1074)) :
    |value s m - q| ≤ |q| * pow2 (-53) := by
  by_cases hsmall : |q| < pow2 (-1021)
  · have hrep : roundMag |q| = |q| := by
      refine roundMag_id ⟨k.natAbs, -1074, ?_, le_rfl, ?_⟩
      · have h1 : |q| = (k.natAbs : ℚ) * pow2 (-1074) := by
          rw [hk, abs_mul, abs_of_pos (pow2_pos _), Nat.cast_natAbs, Int.cast_abs]
        rw [h1, show (-1021 : Int) = 53 + -1074 from rfl, pow2_add] at hsmall
        have := lt_of_mul_lt_mul_right hsmall (pow2_pos _).le
        rw [show (53 : Int) = ((53 : Nat) : Int) from rfl, pow2_nat] at this
        exact_mod_cast this
      · rw [hk, abs_mul, abs_of_pos (pow2_pos _), Nat.cast_natAbs, Int.cast_abs]
    have hex : value s m = q := by
      unfold round at h
      split_ifs at h with h0
      · subst h0
        unfold zero at h
        injection h with h1 h2
        subst h1 h2
        cases nz <;> simp [value]
      · obtain ⟨h1, h2, h3⟩ := mk_fin h
        rw [hrep] at h3
        subst h1
        by_cases hq : q < 0
        · simp only [hq, decide_true, value, if_true, h3, abs_of_neg hq, _root_.neg_neg]
        · simp only [hq, decide_false, value, Bool.false_eq_true, if_false, h3, abs_of_nonneg (not_lt.mp hq)]
    rw [hex, sub_self, abs_zero]
    exact mul_nonneg (abs_nonneg _) (pow2_pos _).le
  · have := round_err h
    rwa [max_eq_left] at this
    have h1 : pow2 (-1021) ≤ |q| := not_lt.mp hsmall
    calc pow2 (-1075) ≤ pow2 (-1021 + -53) := pow2_mono (by norm_num)
      _ = pow2 (-1021) * pow2 (-53) := pow2_add _ _
      _ ≤ _ := mul_le_mul_of_nonneg_right h1 (pow2_pos _).le

theorem unit_pos : 0 < unitRoundoff := two_zpow_pos _
theorem unit_lt : unitRoundoff < 1 := by unfold unitRoundoff; norm_num
theorem under_pos : 0 < underflow := two_zpow_pos _

theorem unit_rat : ((pow2 (-53) : ℚ) : ℝ) = unitRoundoff := pow2_real _
theorem under_rat : ((pow2 (-1075) : ℚ) : ℝ) = underflow := pow2_real _

/-! ### Operations with finite results -/

theorem add_finite {x y : F64} (h : Fin' (add x y)) : Fin' x ∧ Fin' y := by
  unfold Fin' at *
  cases x <;> cases y <;> simp [add, isFinite] at h ⊢
  split_ifs at h

theorem mul_finite {x y : F64} (h : Fin' (mul x y)) : Fin' x ∧ Fin' y := by
  unfold Fin' at *
  cases x <;> cases y <;> simp [mul, isFinite] at h ⊢
  · split_ifs at h
  · split_ifs at h

theorem neg_finite {x : F64} : Fin' (neg x) ↔ Fin' x := by
  unfold Fin'
  cases x <;> simp [neg, isFinite]

theorem fval_neg (x : F64) : fval (neg x) = -fval x := by
  cases x with
  | nan => simp [neg, fval]
  | inf s => simp [neg, fval]
  | fin s m => cases s <;> simp [neg, fval, value]

theorem fval_abs (x : F64) : fval (abs x) = |fval x| := by
  cases x with
  | nan => simp [abs, fval]
  | inf s => simp [abs, fval]
  | fin s m =>
    have h : ((value s m : ℚ) : ℝ) = realOf s m := value_real s m
    have hm : (0 : ℝ) ≤ ((m.1 : ℚ) : ℝ) := by exact_mod_cast mag_nonneg m
    cases s <;> simp [abs, fval, value, abs_of_nonneg hm]

theorem add_err {x y : F64} (h : Fin' (add x y)) : |fval (add x y) - (fval x + fval y)| ≤ unitRoundoff * |fval x + fval y| := by
  obtain ⟨hx, hy⟩ := add_finite h
  obtain ⟨s, a, rfl⟩ := isFinite_iff.mp hx
  obtain ⟨t, b, rfl⟩ := isFinite_iff.mp hy
  obtain ⟨w, m, hm⟩ := isFinite_iff.mp h
  rw [hm]
  obtain ⟨k1, e1⟩ := value_grid s a
  obtain ⟨k2, e2⟩ := value_grid t b
  have := round_grid_err (k := k1 + k2) (show round (s && t) (value s a + value t b) = .fin w m from hm)
    (by rw [e1, e2]; push_cast; ring)
  show |((value w m : ℚ) : ℝ) - (((value s a : ℚ) : ℝ) + ((value t b : ℚ) : ℝ))| ≤
    unitRoundoff * |((value s a : ℚ) : ℝ) + ((value t b : ℚ) : ℝ)|
  rw [← unit_rat, _root_.mul_comm]
  exact_mod_cast this

theorem mul_err {x y : F64} (h : Fin' (mul x y)) :
    |fval (mul x y) - fval x * fval y| ≤ unitRoundoff * |fval x * fval y| + underflow := by
  obtain ⟨hx, hy⟩ := mul_finite h
  obtain ⟨s, a, rfl⟩ := isFinite_iff.mp hx
  obtain ⟨t, b, rfl⟩ := isFinite_iff.mp hy
  obtain ⟨w, m, hm⟩ := isFinite_iff.mp h
  rw [hm]
  have h1 := round_err (show round (s != t) (value s a * value t b) = .fin w m by rw [← mul_fin]; exact hm)
  have h2 : |value w m - value s a * value t b| ≤ |value s a * value t b| * pow2 (-53) + pow2 (-1075) :=
    h1.trans (max_le (le_add_of_nonneg_right (pow2_pos _).le)
      (le_add_of_nonneg_left (mul_nonneg (abs_nonneg _) (pow2_pos _).le)))
  show |((value w m : ℚ) : ℝ) - ((value s a : ℚ) : ℝ) * ((value t b : ℚ) : ℝ)| ≤
    unitRoundoff * |((value s a : ℚ) : ℝ) * ((value t b : ℚ) : ℝ)| + underflow
  rw [← unit_rat, ← under_rat, _root_.mul_comm (pow2 (-53) : ℝ)]
  exact_mod_cast h2

/-! ### The calculus -/

/-- `x` is a finite double, the result of at most `n` consecutive roundings of an expression with exact value `v`, whose terms
have magnitudes adding up to `a` and contain `m` products. -/
structure Approx (x : F64) (v a : ℝ) (n m : Nat) : Prop where
  fin : Fin' x
  err : |fval x - v| ≤ slop n m a
  bound : |v| ≤ a

theorem grow_pos (n : Nat) : 1 ≤ (1 + unitRoundoff) ^ n := one_le_pow₀ (by linarith [unit_pos])

theorem slop_nonneg {n m : Nat} {a : ℝ} (ha : 0 ≤ a) : 0 ≤ slop n m a := by
  have h1 := grow_pos n
  have h2 := under_pos
  have h3 : (0 : ℝ) ≤ (m : ℝ) := Nat.cast_nonneg m
  unfold slop
  have := mul_nonneg (sub_nonneg.mpr h1) ha
  have := mul_nonneg (mul_nonneg h3 (by linarith : 0 ≤ (1 + unitRoundoff) ^ n)) h2.le
  linarith

theorem slop_mono {n m n' m' : Nat} {a a' : ℝ} (hn : n ≤ n') (hm : m ≤ m') (ha : 0 ≤ a) (haa : a ≤ a') :
    slop n m a ≤ slop n' m' a' := by
  have h1 := grow_pos n
  have h2 : (1 + unitRoundoff) ^ n ≤ (1 + unitRoundoff) ^ n' := pow_le_pow_right₀ (by linarith [unit_pos]) hn
  have h3 : (m : ℝ) ≤ (m' : ℝ) := Nat.cast_le.mpr hm
  have h4 : (0 : ℝ) ≤ (m : ℝ) := Nat.cast_nonneg m
  unfold slop
  refine add_le_add (mul_le_mul (by linarith) haa ha (by linarith)) ?_
  exact mul_le_mul_of_nonneg_right (mul_le_mul h3 h2 (by linarith) (by linarith)) under_pos.le

theorem Approx.nonneg {x : F64} {v a : ℝ} {n m : Nat} (h : Approx x v a n m) : 0 ≤ a := (abs_nonneg _).trans h.bound

theorem Approx.weaken {x : F64} {v a : ℝ} {n m n' m' : Nat} (h : Approx x v a n m) (hn : n ≤ n') (hm : m ≤ m') :
    Approx x v a n' m' := ⟨h.fin, h.err.trans (slop_mono hn hm h.nonneg le_rfl), h.bound⟩

theorem Approx.exact {x : F64} (h : Fin' x) : Approx x (fval x) |fval x| 0 0 := by
  refine ⟨h, ?_, le_rfl⟩
  unfold slop
  simp

theorem Approx.mul {x y : F64} (h : Fin' (mul x y)) : Approx (mul x y) (fval x * fval y) |fval x * fval y| 1 1 := by
  refine ⟨h, (mul_err h).trans ?_, le_rfl⟩
  unfold slop
  have := mul_pos unit_pos under_pos
  simp only [pow_one, Nat.cast_one]
  linarith

theorem Approx.neg {x : F64} {v a : ℝ} {n m : Nat} (h : Approx x v a n m) : Approx (neg x) (-v) a n m := by
  refine ⟨neg_finite.mpr h.fin, ?_, by rw [abs_neg]; exact h.bound⟩
  rw [fval_neg, show -fval x - -v = -(fval x - v) by ring, abs_neg]
  exact h.err

theorem Approx.add {x y : F64} {v w a b : ℝ} {n m k l : Nat} (hx : Approx x v a n m) (hy : Approx y w b k l)
    (h : Fin' (add x y)) : Approx (add x y) (v + w) (a + b) (max n k + 1) (m + l) := by
  refine ⟨h, ?_, (abs_add_le _ _).trans (add_le_add hx.bound hy.bound)⟩
  have e0 := add_err h
  have ex : |fval x - v| ≤ slop (max n k) m a := hx.err.trans (slop_mono (le_max_left _ _) le_rfl hx.nonneg le_rfl)
  have ey : |fval y - w| ≤ slop (max n k) l b := hy.err.trans (slop_mono (le_max_right _ _) le_rfl hy.nonneg le_rfl)
  have hbx := hx.bound
  have hby := hy.bound
  have hu := unit_pos
  have e1 : |fval x + fval y - (v + w)| ≤ slop (max n k) m a + slop (max n k) l b := by
    calc |fval x + fval y - (v + w)| = |(fval x - v) + (fval y - w)| := by ring_nf
      _ ≤ _ := (abs_add_le _ _).trans (add_le_add ex ey)
  have e2 : |fval x + fval y| ≤ a + b + (slop (max n k) m a + slop (max n k) l b) := by
    calc |fval x + fval y| = |(v + w) + (fval x + fval y - (v + w))| := by ring_nf
      _ ≤ |v + w| + _ := abs_add_le _ _
      _ ≤ _ := add_le_add ((abs_add_le _ _).trans (add_le_add hbx hby)) e1
  have e3 : |fval (F64.add x y) - (v + w)| ≤ unitRoundoff * |fval x + fval y| + |fval x + fval y - (v + w)| := by
    calc |fval (F64.add x y) - (v + w)| = |(fval (F64.add x y) - (fval x + fval y)) + (fval x + fval y - (v + w))| := by ring_nf
      _ ≤ _ := (abs_add_le _ _).trans (add_le_add e0 le_rfl)
  have e4 : unitRoundoff * |fval x + fval y| ≤ unitRoundoff * (a + b + (slop (max n k) m a + slop (max n k) l b)) :=
    mul_le_mul_of_nonneg_left e2 hu.le
  refine (e3.trans (add_le_add e4 e1)).trans (le_of_eq ?_)
  unfold slop
  rw [pow_succ]
  push_cast
  ring

theorem Approx.sub {x y : F64} {v w a b : ℝ} {n m k l : Nat} (hx : Approx x v a n m) (hy : Approx y w b k l)
    (h : Fin' (F64.add x (F64.neg y))) : Approx (F64.add x (F64.neg y)) (v - w) (a + b) (max n k + 1) (m + l) := by
  rw [sub_eq_add_neg]
  exact hx.add hy.neg h

/-! ### Sums -/

theorem added_nil {l : List F64} {x : F64} (h : AddedUp l x) (hl : l = []) : fval x = 0 ∧ Fin' x := by
  induction h with
  | none => exact ⟨fval_zero false, rfl⟩
  | one x => simp at hl
  | @add l l' l'' x y h1 h2 hp ih1 ih2 =>
    subst hl
    have := hp.symm.eq_nil
    obtain ⟨rfl, rfl⟩ := List.append_eq_nil_iff.mp this
    obtain ⟨a1, a2⟩ := ih1 rfl
    obtain ⟨b1, b2⟩ := ih2 rfl
    obtain ⟨s, a, rfl⟩ := isFinite_iff.mp a2
    obtain ⟨t, b, rfl⟩ := isFinite_iff.mp b2
    have ha : value s a = 0 := by
      have h : ((value s a : ℚ) : ℝ) = 0 := a1
      exact_mod_cast h
    have hb : value t b = 0 := by
      have h : ((value t b : ℚ) : ℝ) = 0 := b1
      exact_mod_cast h
    have e : F64.add (.fin s a) (.fin t b) = zero (s && t) := by
      show round (s && t) (value s a + value t b) = _
      rw [ha, hb, _root_.add_zero]
      simp [round]
    rw [e]
    exact ⟨fval_zero _, rfl⟩

theorem add_zero_val {x y : F64} (h : Fin' (add x y)) (hy : fval y = 0) : fval (add x y) = fval x := by
  obtain ⟨hx, hy'⟩ := add_finite h
  obtain ⟨s, a, rfl⟩ := isFinite_iff.mp hx
  obtain ⟨t, b, rfl⟩ := isFinite_iff.mp hy'
  have hb : value t b = 0 := by
    have h : ((value t b : ℚ) : ℝ) = 0 := hy
    exact_mod_cast h
  have e : F64.add (.fin s a) (.fin t b) = round (s && t) (value s a) := by
    show round (s && t) (value s a + value t b) = _
    rw [hb, _root_.add_zero]
  rw [e]
  by_cases h0 : a.1 = 0
  · have hv : value s a = 0 := by unfold value; simp [h0]
    rw [hv]
    simp only [round, if_true, fval_zero]
    show (0 : ℝ) = ((value s a : ℚ) : ℝ)
    rw [hv]; simp
  · rw [round_value (.inl h0)]

theorem added_finite {l : List F64} {x : F64} (h : AddedUp l x) (hx : Fin' x) : ∀ e ∈ l, Fin' e := by
  induction h with
  | none => simp
  | one x => simpa using hx
  | @add l l' l'' x y h1 h2 hp ih1 ih2 =>
    obtain ⟨a1, a2⟩ := add_finite hx
    intro e he
    rcases List.mem_append.mp (hp.mem_iff.mp he) with h | h
    · exact ih1 a1 e h
    · exact ih2 a2 e h

/-- A sum of approximations, whatever the order. -/
theorem added_approx {l : List F64} {x : F64} (h : AddedUp l x) (hx : Fin' x) {n : Nat} : ∀ es : List (ℝ × ℝ × ℕ),
    List.Forall₂ (fun e t => Approx e t.1 t.2.1 n t.2.2) l es →
    Approx x (es.map (·.1)).sum (es.map (·.2.1)).sum (n + l.length - 1) (es.map (·.2.2)).sum := by
  induction h with
  | none =>
    intro es hes
    cases hes
    refine ⟨rfl, ?_, by simp⟩
    rw [fval_zero]
    simp [slop]
  | one x =>
    intro es hes
    obtain ⟨t, ts, h1, h2, rfl⟩ := List.forall₂_cons_left_iff.mp hes
    cases h2
    simpa using h1
  | @add l l' l'' x y h1 h2 hp ih1 ih2 =>
    intro es hes
    obtain ⟨w, hw, hperm⟩ := List.perm_comp_forall₂ hp.symm hes
    obtain ⟨hx1, hx2⟩ := add_finite hx
    obtain ⟨w1, w2, hw1, hw2, rfl⟩ : ∃ w1 w2, List.Forall₂ (fun e t => Approx e t.1 t.2.1 n t.2.2) l w1 ∧
        List.Forall₂ (fun e t => Approx e t.1 t.2.1 n t.2.2) l' w2 ∧ w = w1 ++ w2 := by
      refine ⟨w.take l.length, w.drop l.length, ?_, ?_, (List.take_append_drop _ _).symm⟩
      · have := List.forall₂_take l.length hw
        rwa [List.take_left'] at this
        rfl
      · have := List.forall₂_drop l.length hw
        rwa [List.drop_left'] at this
        rfl
    have r1 := ih1 hx1 w1 hw1
    have r2 := ih2 hx2 w2 hw2
    have e1 : (es.map (·.1)).sum = (w1.map (·.1)).sum + (w2.map (·.1)).sum := by
      rw [← List.sum_append, ← List.map_append]; exact ((hperm.map _).sum_eq).symm
    have e2 : (es.map (·.2.1)).sum = (w1.map (·.2.1)).sum + (w2.map (·.2.1)).sum := by
      rw [← List.sum_append, ← List.map_append]; exact ((hperm.map _).sum_eq).symm
    have e3 : (es.map (·.2.2)).sum = (w1.map (·.2.2)).sum + (w2.map (·.2.2)).sum := by
      rw [← List.sum_append, ← List.map_append]; exact ((hperm.map _).sum_eq).symm
    have e4 : l''.length = l.length + l'.length := by rw [hp.length_eq, List.length_append]
    rw [e1, e2, e3, e4]
    rcases Nat.eq_zero_or_pos l'.length with hl' | hl'
    · have hnil := List.length_eq_zero_iff.mp hl'
      subst hnil
      cases hw2
      have := (added_nil h2 rfl).1
      refine ⟨hx, ?_, ?_⟩
      · rw [add_zero_val hx this]
        simpa using r1.err
      · simpa using r1.bound
    rcases Nat.eq_zero_or_pos l.length with hl | hl
    · have hnil := List.length_eq_zero_iff.mp hl
      subst hnil
      cases hw1
      have := (added_nil h1 rfl).1
      refine ⟨hx, ?_, ?_⟩
      · rw [F64.add_comm, add_zero_val (by rwa [F64.add_comm]) this]
        simpa using r2.err
      · simpa using r2.bound
    · exact (r1.add r2 hx).weaken (by omega) le_rfl

/-! ### Sums of non-negative terms, norms -/

theorem added_lower {l : List F64} {x : F64} (h : AddedUp l x) (hx : Fin' x) (hpos : ∀ e ∈ l, 0 ≤ fval e) :
    0 ≤ fval x ∧ (1 - unitRoundoff) ^ (l.length - 1) * (l.map fval).sum ≤ fval x := by
  have hu := unit_pos
  have hu1 := unit_lt
  induction h with
  | none => simp [fval_zero]
  | one x => simpa using hpos
  | @add l l' l'' x y h1 h2 hp ih1 ih2 =>
    obtain ⟨hx1, hx2⟩ := add_finite hx
    have p1 : ∀ e ∈ l, 0 ≤ fval e := fun e he => hpos e (hp.mem_iff.mpr (List.mem_append_left _ he))
    have p2 : ∀ e ∈ l', 0 ≤ fval e := fun e he => hpos e (hp.mem_iff.mpr (List.mem_append_right _ he))
    obtain ⟨a1, a2⟩ := ih1 hx1 p1
    obtain ⟨b1, b2⟩ := ih2 hx2 p2
    have e1 : (l''.map fval).sum = (l.map fval).sum + (l'.map fval).sum := by
      rw [← List.sum_append, ← List.map_append]; exact (hp.map _).sum_eq
    have e4 : l''.length = l.length + l'.length := by rw [hp.length_eq, List.length_append]
    have n1 : 0 ≤ (l.map fval).sum := List.sum_nonneg (by simpa using p1)
    have n2 : 0 ≤ (l'.map fval).sum := List.sum_nonneg (by simpa using p2)
    have herr := add_err hx
    rw [abs_of_nonneg (add_nonneg a1 b1)] at herr
    have hlow : (1 - unitRoundoff) * (fval x + fval y) ≤ fval (F64.add x y) := by
      have := (abs_le.mp herr).1
      linarith
    refine ⟨_root_.le_trans (mul_nonneg (by linarith) (add_nonneg a1 b1)) hlow, ?_⟩
    rw [e1, e4]
    rcases Nat.eq_zero_or_pos l'.length with hl' | hl'
    · have hnil := List.length_eq_zero_iff.mp hl'
      subst hnil
      rw [add_zero_val hx (added_nil h2 rfl).1]
      simpa using a2
    rcases Nat.eq_zero_or_pos l.length with hl | hl
    · have hnil := List.length_eq_zero_iff.mp hl
      subst hnil
      rw [F64.add_comm, add_zero_val (by rwa [F64.add_comm]) (added_nil h1 rfl).1]
      simpa using b2
    · refine _root_.le_trans ?_ hlow
      have q0 : 0 ≤ 1 - unitRoundoff := by linarith
      have g1 : (1 - unitRoundoff) ^ (l.length + l'.length - 2) ≤ (1 - unitRoundoff) ^ (l.length - 1) :=
        pow_le_pow_of_le_one q0 (by linarith) (by omega)
      have g2 : (1 - unitRoundoff) ^ (l.length + l'.length - 2) ≤ (1 - unitRoundoff) ^ (l'.length - 1) :=
        pow_le_pow_of_le_one q0 (by linarith) (by omega)
      have g3 := mul_le_mul_of_nonneg_right g1 n1
      have g4 := mul_le_mul_of_nonneg_right g2 n2
      rw [show l.length + l'.length - 1 = (l.length + l'.length - 2) + 1 by omega, pow_succ,
        _root_.mul_comm ((1 - unitRoundoff) ^ (l.length + l'.length - 2)), mul_assoc]
      refine mul_le_mul_of_nonneg_left ?_ q0
      rw [mul_add]
      linarith

theorem mul_self_lower {x : F64} (h : Fin' (mul x x)) :
    0 ≤ fval (mul x x) ∧ (1 - unitRoundoff) * fval x ^ 2 - underflow ≤ fval (mul x x) := by
  constructor
  · obtain ⟨s, a, rfl⟩ := isFinite_iff.mp (mul_finite h).1
    have e : F64.mul (.fin s a) (.fin s a) = mk false (a.1 * a.1) := by
      show mk (s != s) (a.1 * a.1) = _
      simp
    rw [e] at h ⊢
    obtain ⟨t, m, hm⟩ := isFinite_iff.mp h
    obtain ⟨rfl, -, -⟩ := mk_fin hm
    rw [hm]
    show (0 : ℝ) ≤ ((value false m : ℚ) : ℝ)
    have := mag_nonneg m
    simp only [value, Bool.false_eq_true, if_false]
    exact_mod_cast this
  · have := mul_err h
    rw [← sq, abs_of_nonneg (sq_nonneg (fval x))] at this
    have := (abs_le.mp this).1
    linarith

theorem sqrt_lt {x t : F64} (ht : Fin' t) (h : lt (sqrt x) t = true) : Fin' x ∧ 0 ≤ fval x ∧ fval x < fval t ^ 2 ∧ 0 < fval t := by
  obtain ⟨s, b, rfl⟩ := isFinite_iff.mp ht
  cases x with
  | nan => simp [sqrt, lt] at h
  | inf s => cases s <;> simp [sqrt, lt] at h
  | fin w m =>
    refine ⟨rfl, ?_⟩
    by_cases h0 : m.1 = 0
    · simp only [sqrt, h0, if_true] at h
      have hv : value w m = 0 := by unfold value; simp [h0]
      have h1 : (0 : ℚ) < value s b := by
        have : decide (value w m < value s b) = true := h
        rw [hv] at this
        exact of_decide_eq_true this
      have h2 : fval (.fin w m) = 0 := by show ((value w m : ℚ) : ℝ) = 0; rw [hv]; simp
      have h3 : 0 < fval (.fin s b) := by show (0 : ℝ) < ((value s b : ℚ) : ℝ); exact_mod_cast h1
      rw [h2]
      exact ⟨_root_.le_refl _, by positivity, h3⟩
    · cases w with
      | true => simp [sqrt, h0, lt] at h
      | false =>
        have hpos : 0 < m.1 := lt_of_le_of_ne (mag_nonneg m) (Ne.symm h0)
        have hr := ieee_sqrt m hpos
        have hfv : fval (.fin false m) = realOf false m := value_real false m
        have hpos' : 0 < fval (.fin false m) := by
          show (0 : ℝ) < ((value false m : ℚ) : ℝ)
          simp only [value, Bool.false_eq_true, if_false]
          exact_mod_cast hpos
        rw [← hfv] at hr
        generalize hz : sqrt (.fin false m) = z at h hr
        cases z with
        | nan => exact hr.elim
        | inf s' =>
          obtain ⟨-, hs⟩ := hr
          have : ¬ (Real.sqrt (fval (.fin false m)) < 0) := not_lt.mpr (Real.sqrt_nonneg _)
          have hs' : s' = false := by
            cases s' with
            | false => rfl
            | true => exact absurd (hs.mp rfl) this
          subst hs'
          simp [lt] at h
        | fin s' m' =>
          obtain ⟨-, -, hnear, -, hs1, hs2⟩ := hr
          have hzt : fval (.fin s' m') < fval (.fin s b) := by
            have : value s' m' < value s b := of_decide_eq_true h
            show ((value s' m' : ℚ) : ℝ) < ((value s b : ℚ) : ℝ)
            exact_mod_cast this
          have hs'' := hs2 (Real.sqrt_pos.mpr hpos')
          subst hs''
          have hz0 : 0 ≤ fval (.fin false m') := by
            show (0 : ℝ) ≤ ((value false m' : ℚ) : ℝ)
            simp only [value, Bool.false_eq_true, if_false]
            exact_mod_cast mag_nonneg m'
          have ht0 : 0 < fval (.fin s b) := _root_.lt_of_le_of_lt hz0 hzt
          refine ⟨hpos'.le, ?_, ht0⟩
          by_contra hc
          have hc : fval (.fin s b) ^ 2 ≤ fval (.fin false m) := not_lt.mp hc
          have hle : fval (.fin s b) ≤ Real.sqrt (fval (.fin false m)) := Real.le_sqrt_of_sq_le hc
          have hn := hnear (realOf s b) (isDouble_realOf s b)
          have e1 : realOf s b = fval (.fin s b) := (value_real s b).symm
          have e2 : realOf false m' = fval (.fin false m') := (value_real false m').symm
          rw [e1, e2] at hn
          rw [abs_of_nonpos (by linarith : fval (.fin s b) - Real.sqrt (fval (.fin false m)) ≤ 0)] at hn
          have := (abs_le.mp hn).1
          linarith

/-- Rounding is monotone: if the rounded value is below a double, so is the exact one. -/
theorem rounded_lt {x : ℝ} {z t : F64} (hr : IsRounded x z) (ht : Fin' t) (h : lt z t = true) : x < fval t := by
  obtain ⟨s, b, rfl⟩ := isFinite_iff.mp ht
  cases z with
  | nan => exact hr.elim
  | inf s' =>
    obtain ⟨hb, hs⟩ := hr
    cases s' with
    | false => simp [lt] at h
    | true =>
      have hx : x < 0 := hs.mp rfl
      rw [abs_of_neg hx] at hb
      have hd := isDouble_realOf s b
      obtain ⟨m, e, hm, -, he, hv⟩ := hd
      have h1 : |realOf s b| < overflowBound := by
        have h2 : (2 : ℝ) ^ e ≤ (2 : ℝ) ^ (971 : ℤ) := two_zpow_mono he
        have h3 : (m : ℝ) ≤ 2 ^ 53 - 1 := by
          have : m + 1 ≤ 2 ^ 53 := hm
          have h4 : ((m + 1 : Nat) : ℝ) ≤ ((2 ^ 53 : Nat) : ℝ) := Nat.cast_le.mpr this
          push_cast at h4
          linarith
        have h0 := two_zpow_pos e
        have h5 : (m : ℝ) * (2 : ℝ) ^ e ≤ (2 ^ 53 - 1) * (2 : ℝ) ^ (971 : ℤ) :=
          mul_le_mul h3 h2 h0.le (by norm_num)
        rw [hv, overflow_eq]
        have h6 : (2 : ℝ) ^ (1024 : ℤ) = 2 ^ 53 * (2 : ℝ) ^ (971 : ℤ) := by
          rw [show (1024 : ℤ) = 53 + 971 from rfl, two_zpow_add, two_zpow_53]
        have h7 : (2 : ℝ) ^ (971 : ℤ) = 2 * (2 : ℝ) ^ (970 : ℤ) := by
          rw [show (971 : ℤ) = 1 + 970 from rfl, two_zpow_add]; norm_num
        have h8 := two_zpow_pos 970
        rw [h6]
        generalize (2 : ℝ) ^ (970 : ℤ) = g at *
        generalize (2 : ℝ) ^ (971 : ℤ) = g' at *
        generalize (m : ℝ) * (2 : ℝ) ^ e = w at *
        rw [sub_mul, _root_.one_mul] at h5
        generalize (2 : ℝ) ^ 53 * g' = q at *
        linarith only [h5, h7, h8]
      have h2 : realOf s b = fval (.fin s b) := (value_real s b).symm
      have := (abs_lt.mp h1).1
      rw [h2] at this
      linarith
  | fin s' m' =>
    obtain ⟨-, -, hnear, -⟩ := hr
    have hzt : fval (.fin s' m') < fval (.fin s b) := by
      have : value s' m' < value s b := of_decide_eq_true h
      show ((value s' m' : ℚ) : ℝ) < ((value s b : ℚ) : ℝ)
      exact_mod_cast this
    by_contra hc
    have hle : fval (.fin s b) ≤ x := not_lt.mp hc
    have hn := hnear (realOf s b) (isDouble_realOf s b)
    have e1 : realOf s b = fval (.fin s b) := (value_real s b).symm
    have e2 : realOf s' m' = fval (.fin s' m') := (value_real s' m').symm
    rw [e1, e2, abs_of_nonpos (by linarith : fval (.fin s b) - x ≤ 0)] at hn
    have := (abs_le.mp hn).1
    linarith

theorem div_lt {x y t : F64} (hy : Fin' y) (hy0 : 0 < fval y) (ht : Fin' t) (h : lt (div x y) t = true)
    (hx : x ≠ .inf true) : Fin' x ∧ fval x < fval t * fval y := by
  obtain ⟨s, b, rfl⟩ := isFinite_iff.mp hy
  have e1 : realOf s b = fval (.fin s b) := (value_real s b).symm
  cases x with
  | nan => simp [div, lt] at h
  | inf w =>
    cases w with
    | true => exact absurd rfl hx
    | false =>
      exfalso
      have hs : s = false := by
        cases s with
        | false => rfl
        | true =>
          exfalso
          have : fval (.fin true b) ≤ 0 := by
            show ((value true b : ℚ) : ℝ) ≤ 0
            have := mag_nonneg b
            simp only [value, if_true]
            have h2 : ((-b.1 : ℚ) : ℝ) ≤ ((0 : ℚ) : ℝ) := Rat.cast_le.mpr (by linarith)
            simpa using h2
          linarith
      subst hs
      obtain ⟨s', b', rfl⟩ := isFinite_iff.mp ht
      simp [div, lt] at h
  | fin w a =>
    refine ⟨rfl, ?_⟩
    have hr := (ieee_div w s a b (by rw [e1]; exact hy0.ne')).1
    have := rounded_lt hr ht h
    rw [e1, div_lt_iff₀ hy0] at this
    have e2 : realOf w a = fval (.fin w a) := (value_real w a).symm
    rwa [e2] at this

end MiniOpt.F64

namespace MiniOpt

open MiniOpt.Spec MiniOpt.F64

variable {L : Libm} {n : Nat}

theorem realVal_eq (x : Dbl L) : realVal x = fval x := by
  unfold realVal Dbl.toRat fval
  cases x <;> simp

/-- The double `x` approximates the exact value `v`. -/
abbrev Near (x : Dbl L) (v a : ℝ) (n m : Nat) : Prop := Approx x v a n m

/-- Finite, as a predicate on `Dbl`. -/
abbrev IsFin (x : Dbl L) : Prop := Fin' x

theorem near_dot (hL : AddsUp L) (a b : Fin n → Dbl L) (h : IsFin (dot a b)) :
    Near (dot a b) (∑ i, realVal (a i) * realVal (b i)) (∑ i, |realVal (a i) * realVal (b i)|) n n ∧
    ∀ i, IsFin (a i) ∧ IsFin (b i) := by
  have hs := hL (List.ofFn fun i => (F64.mul (a i) (b i) : F64))
  have hfin := added_finite hs h
  have hi : ∀ i, Fin' (F64.mul (a i) (b i)) := fun i => hfin _ (List.mem_ofFn.mpr ⟨i, rfl⟩)
  refine ⟨?_, fun i => mul_finite (hi i)⟩
  have := added_approx hs h (n := 1)
    (List.ofFn fun i => (fval (a i) * fval (b i), |fval (a i) * fval (b i)|, 1)) (by
      rw [List.forall₂_iff_get]
      refine ⟨by simp, fun k h1 h2 => ?_⟩
      simp only [List.get_ofFn]
      exact Approx.mul (hi _))
  simp only [List.map_ofFn, List.length_ofFn, List.sum_ofFn, Function.comp_def, Finset.sum_const, Finset.card_univ,
    Fintype.card_fin, smul_eq_mul, mul_one] at this
  simp only [realVal_eq]
  exact this.weaken (by omega) (by omega)

theorem norm2_lt (hL : AddsUp L) (r : Fin n → Dbl L) (t : Dbl L) (ht : IsFin t) (h : norm2 r < t) :
    (∀ i, IsFin (r i)) ∧ l2 (fun i => realVal (r i)) ≤ inflated n (realVal t) := by
  have hlt : F64.lt (F64.sqrt (dot r r : Dbl L)) t = true := h
  obtain ⟨hf, -, h2, -⟩ := sqrt_lt ht hlt
  have hs := hL (List.ofFn fun i => (F64.mul (r i) (r i) : F64))
  have hfin := added_finite hs hf
  have hi : ∀ i, Fin' (F64.mul (r i) (r i)) := fun i => hfin _ (List.mem_ofFn.mpr ⟨i, rfl⟩)
  refine ⟨fun i => (mul_finite (hi i)).1, ?_⟩
  have hl := (added_lower hs hf (by
    intro e he
    obtain ⟨i, rfl⟩ := List.mem_ofFn.mp he
    exact (mul_self_lower (hi i)).1)).2
  have hu := unit_pos
  have hu1 := unit_lt
  have hη := under_pos
  simp only [List.map_ofFn, List.length_ofFn, List.sum_ofFn, Function.comp_def] at hl
  have hsum : (1 - unitRoundoff) * (∑ i, fval (r i) ^ 2) - n * underflow ≤ ∑ i, fval (F64.mul (r i) (r i)) := by
    calc (1 - unitRoundoff) * (∑ i, fval (r i) ^ 2) - n * underflow
        = ∑ i : Fin n, ((1 - unitRoundoff) * fval (r i) ^ 2 - underflow) := by
          rw [Finset.sum_sub_distrib, ← Finset.mul_sum]; simp
      _ ≤ _ := Finset.sum_le_sum fun i _ => (mul_self_lower (hi i)).2
  have q0 : 0 < 1 - unitRoundoff := by linarith
  have hpow : (1 - unitRoundoff) ^ n * (∑ i, fval (r i) ^ 2) ≤ fval t ^ 2 + n * underflow := by
    rcases Nat.eq_zero_or_pos n with rfl | hn
    · simp only [Finset.univ_eq_empty, Finset.sum_empty, mul_zero]
      have := sq_nonneg (fval t)
      simp only [Nat.cast_zero, zero_mul, add_zero]
      exact this
    · have h3 := mul_le_mul_of_nonneg_left hsum (pow_nonneg q0.le (n - 1))
      have h4 : (1 - unitRoundoff) ^ (n - 1) ≤ 1 := pow_le_one₀ q0.le (by linarith)
      have h5 : (1 - unitRoundoff) ^ n = (1 - unitRoundoff) ^ (n - 1) * (1 - unitRoundoff) := by
        rw [← pow_succ]; congr 1; omega
      have h6 : (0 : ℝ) ≤ n * underflow := by positivity
      have h7 := mul_le_mul_of_nonneg_right h4 h6
      have hl' : (1 - unitRoundoff) ^ (n - 1) * ∑ i, fval (F64.mul (r i) (r i)) < fval t ^ 2 := _root_.lt_of_le_of_lt hl h2
      rw [h5]
      rw [mul_sub, ← mul_assoc] at h3
      linarith
  unfold l2 inflated
  refine Real.sqrt_le_sqrt ?_
  simp only [realVal_eq]
  rw [le_div_iff₀ (pow_pos q0 n)]
  linarith

end MiniOpt
