import Verif.Lemmas.LDLTBackward

/-!
# Rounding errors of a linear solve
-/

set_option autoImplicit false

namespace MiniOpt.LDLT

open MiniOpt MiniOpt.Spec MiniOpt.F64

variable {L : Libm} {ι : Type} [DecidableEq ι] [Fintype ι]

omit [DecidableEq ι] in
theorem sum_abs_le (g h : ι → ℝ) (hgh : ∀ i, |g i| ≤ h i) : |∑ i, g i| ≤ ∑ i, h i :=
  (Finset.abs_sum_le_sum_abs _ _).trans (Finset.sum_le_sum fun i _ => hgh i)

omit [DecidableEq ι] in
/-- Errors of the factorisation and of the three stages of the solve, put together. -/
theorem residual_combine (H U : ι → ι → ℝ) (D b x y z : ι → ℝ) (F : ι → ι → ℝ) (w κ ν : ℝ) (hw : 1 ≤ w)
    (hκ : 0 ≤ κ) (hν : 0 ≤ ν)
    (hE : ∀ i j, |H i j - ∑ l, U i l * (D l * U j l)| ≤ (w - 1) * (∑ l, |U i l| * (|D l| * |U j l|)) + F i j)
    (h1 : ∀ i, |b i - ∑ l, U i l * y l| ≤ (w - 1) * (∑ l, |U i l| * |y l|) + ν)
    (h2 : ∀ l, |D l * z l - y l| ≤ (w - 1) * |D l * z l| + κ * |D l|)
    (h3 : ∀ l, |z l - ∑ j, U j l * x j| ≤ (w - 1) * (∑ j, |U j l| * |x j|) + ν) (i : ι) :
    |∑ j, H i j * x j - b i| ≤ (w ^ 4 - 1) * (∑ j, (∑ l, |U i l| * (|D l| * |U j l|)) * |x j|)
      + (∑ j, F i j * |x j|) + ((w * κ + w ^ 2 * ν) * (∑ l, |U i l| * |D l|) + ν) := by
  set P : ι → ℝ := fun l => ∑ j, |U j l| * |x j| with hP
  have hP0 : ∀ l, 0 ≤ P l := fun l => Finset.sum_nonneg fun j _ => mul_nonneg (abs_nonneg _) (abs_nonneg _)
  have hg : 0 ≤ w - 1 := by linarith
  have hw0 : 0 ≤ w := by linarith
  -- the intermediate vectors
  have hz : ∀ l, |z l| ≤ w * P l + ν := fun l => by
    have a1 : |∑ j, U j l * x j| ≤ P l := sum_abs_le _ _ fun j => by rw [abs_mul]
    have a2 := abs_sub_abs_le_abs_sub (z l) (∑ j, U j l * x j)
    have a3 := h3 l
    change _ ≤ (w - 1) * P l + ν at a3
    linarith
  have hDz : ∀ l, |D l * z l| ≤ |D l| * (w * P l + ν) := fun l => by
    rw [abs_mul]; exact mul_le_mul_of_nonneg_left (hz l) (abs_nonneg _)
  have he2 : ∀ l, |D l * z l - y l| ≤ |D l| * ((w - 1) * (w * P l + ν) + κ) := fun l => by
    have := mul_le_mul_of_nonneg_left (hDz l) hg
    have := h2 l
    linarith
  have hy : ∀ l, |y l| ≤ |D l| * (w * (w * P l + ν) + κ) := fun l => by
    have a2 := abs_sub_abs_le_abs_sub (y l) (D l * z l)
    rw [abs_sub_comm] at a2
    have := hDz l
    have := he2 l
    linarith
  -- the residual
  have hsplit : ∑ j, H i j * x j - b i = (∑ j, (H i j - ∑ l, U i l * (D l * U j l)) * x j)
      - (b i - ∑ l, U i l * y l) + (∑ l, U i l * (D l * z l - y l)) - ∑ l, U i l * (D l * (z l - ∑ j, U j l * x j)) := by
    have s1 : ∑ j, (∑ l, U i l * (D l * U j l)) * x j = ∑ l, U i l * (D l * ∑ j, U j l * x j) := by
      simp only [Finset.sum_mul, Finset.mul_sum]
      rw [Finset.sum_comm]
      exact Finset.sum_congr rfl fun l _ => Finset.sum_congr rfl fun j _ => by ring
    simp only [sub_mul, mul_sub, Finset.sum_sub_distrib]
    rw [s1]
    ring
  have t1 : |∑ j, (H i j - ∑ l, U i l * (D l * U j l)) * x j| ≤
      (w - 1) * (∑ j, (∑ l, |U i l| * (|D l| * |U j l|)) * |x j|) + ∑ j, F i j * |x j| := by
    rw [Finset.mul_sum, ← Finset.sum_add_distrib]
    refine sum_abs_le _ _ fun j => ?_
    rw [abs_mul]
    refine (mul_le_mul_of_nonneg_right (hE i j) (abs_nonneg _)).trans (le_of_eq ?_)
    ring
  have hM : ∑ j, (∑ l, |U i l| * (|D l| * |U j l|)) * |x j| = ∑ l, |U i l| * |D l| * P l := by
    simp only [hP, Finset.sum_mul, Finset.mul_sum]
    rw [Finset.sum_comm]
    exact Finset.sum_congr rfl fun l _ => Finset.sum_congr rfl fun j _ => by ring
  have t2 : |b i - ∑ l, U i l * y l| ≤ (w - 1) * (∑ l, |U i l| * |D l| * (w * (w * P l + ν) + κ)) + ν := by
    refine (h1 i).trans (add_le_add_left (mul_le_mul_of_nonneg_left (Finset.sum_le_sum fun l _ => ?_) hg) _)
    rw [mul_assoc]
    exact mul_le_mul_of_nonneg_left (hy l) (abs_nonneg _)
  have t3 : |∑ l, U i l * (D l * z l - y l)| ≤ ∑ l, |U i l| * |D l| * ((w - 1) * (w * P l + ν) + κ) := by
    refine sum_abs_le _ _ fun l => ?_
    rw [abs_mul, mul_assoc]
    exact mul_le_mul_of_nonneg_left (he2 l) (abs_nonneg _)
  have t4 : |∑ l, U i l * (D l * (z l - ∑ j, U j l * x j))| ≤ ∑ l, |U i l| * |D l| * ((w - 1) * P l + ν) := by
    refine sum_abs_le _ _ fun l => ?_
    rw [abs_mul, abs_mul, mul_assoc]
    exact mul_le_mul_of_nonneg_left (mul_le_mul_of_nonneg_left (h3 l) (abs_nonneg _)) (abs_nonneg _)
  have hcol : ∀ α β : ℝ, ∑ l, |U i l| * |D l| * (α * P l + β) = α * (∑ l, |U i l| * |D l| * P l) + β * ∑ l, |U i l| * |D l| := by
    intro α β
    rw [Finset.mul_sum, Finset.mul_sum, ← Finset.sum_add_distrib]
    exact Finset.sum_congr rfl fun l _ => by ring
  have r2 : ∑ l, |U i l| * |D l| * (w * (w * P l + ν) + κ) = w ^ 2 * (∑ l, |U i l| * |D l| * P l) + (w * ν + κ) * ∑ l, |U i l| * |D l| := by
    rw [← hcol]; exact Finset.sum_congr rfl fun l _ => by ring
  have r3 : ∑ l, |U i l| * |D l| * ((w - 1) * (w * P l + ν) + κ)
      = ((w - 1) * w) * (∑ l, |U i l| * |D l| * P l) + ((w - 1) * ν + κ) * ∑ l, |U i l| * |D l| := by
    rw [← hcol]; exact Finset.sum_congr rfl fun l _ => by ring
  rw [r2] at t2
  rw [r3] at t3
  rw [hcol] at t4
  rw [hM] at t1 ⊢
  have hQ : 0 ≤ ∑ l, |U i l| * |D l| * P l :=
    Finset.sum_nonneg fun l _ => mul_nonneg (mul_nonneg (abs_nonneg _) (abs_nonneg _)) (hP0 l)
  rw [hsplit]
  have a1 : ∀ p q r s : ℝ, |p - q + r - s| ≤ |p| + |q| + |r| + |s| := fun p q r s => by
    have b1 := abs_sub (p - q + r) s
    have b2 := abs_add_le (p - q) r
    have b3 := abs_sub p q
    linarith
  refine (a1 _ _ _ _).trans ?_
  generalize ∑ l, |U i l| * |D l| * P l = Q at *
  generalize ∑ l, |U i l| * |D l| = R at *
  have hfin : (w - 1) * Q + (w - 1) * (w ^ 2 * Q) + (w - 1) * w * Q + (w - 1) * Q ≤ (w ^ 4 - 1) * Q := by
    have : 0 ≤ (w - 1) * (w ^ 3 - 1) * Q := mul_nonneg (mul_nonneg hg (by have := one_le_pow₀ hw (n := 3); linarith)) hQ
    nlinarith
  nlinarith

/-- Forward substitution, in rows. -/
theorem Computed.forward {f : Fact ι (Dbl L)} {H : ι → ι → Dbl L} (hc : Computed f H) (hL : AddsUp L) (b : ι → Dbl L)
    (hfin : ∀ i, IsFin (substitute f.L b [] f.done (fun _ => 0) i)) (i : ι) :
    |realVal (b i) - ∑ l, lowerEntry f i l * realVal (substitute f.L b [] f.done (fun _ => 0) l)| ≤
      (ldltGrowth ι - 1) * (∑ l, |lowerEntry f i l| * |realVal (substitute f.L b [] f.done (fun _ => 0) l)|)
      + Fintype.card ι * ldltGrowth ι * underflow := by
  obtain ⟨a, c, h⟩ := List.append_of_mem (hc.all i)
  set y := substitute f.L b [] f.done (fun _ => 0) with hy
  have hk : y i = b i - Scalar.sum (a.map fun j => f.L i j * y j) :=
    (substitute_gen f.L b f.done [] (fun _ => 0) (by simpa using hc.nodup)).2 a i c h
  have hr := (row_err hL (f.L i) (b i) y a (by rw [← hk]; exact hfin i)).2.2
  rw [← hk] at hr
  rw [hc.row h (fun v l => v * realVal (y l)) (by simp), hc.row h (fun v l => |v| * |realVal (y l)|) (by simp)]
  have hlen : a.length + 1 ≤ Fintype.card ι := by rw [← hc.length, h]; simp
  rw [_root_.one_mul, abs_one, _root_.one_mul, show realVal (b i) - ((a.map fun j => realVal (f.L i j) * realVal (y j)).sum + realVal (y i))
    = realVal (b i) - realVal (y i) - (a.map fun j => realVal (f.L i j) * realVal (y j)).sum by ring]
  refine hr.trans ?_
  have w1 : (1 + unitRoundoff) ^ 2 ≤ ldltGrowth ι := grow_mono (by omega)
  have w2 : (1 + unitRoundoff) ^ (a.length + 1) ≤ ldltGrowth ι := grow_mono (by omega)
  have w3 : (1 + unitRoundoff) ^ a.length ≤ ldltGrowth ι := grow_mono (by omega)
  have hA : 0 ≤ (a.map fun l => |realVal (f.L i l)| * |realVal (y l)|).sum :=
    List.sum_nonneg fun v hv => by obtain ⟨l, _, rfl⟩ := List.mem_map.mp hv; exact mul_nonneg (abs_nonneg _) (abs_nonneg _)
  have e3 : (a.map fun _ => underflow).sum ≤ Fintype.card ι * underflow := by
    rw [List.map_const', List.sum_replicate, nsmul_eq_mul]
    exact mul_le_mul_of_nonneg_right (Nat.cast_le.mpr (by omega)) under_pos.le
  have e4 : 0 ≤ (a.map fun _ => underflow).sum := by
    rw [List.map_const', List.sum_replicate, nsmul_eq_mul]
    exact mul_nonneg (Nat.cast_nonneg _) under_pos.le
  simp only [abs_mul]
  have g1 := mul_le_mul_of_nonneg_right w1 (abs_nonneg (realVal (y i)))
  have g2 := mul_le_mul_of_nonneg_right w2 hA
  have g3 := mul_le_mul w3 e3 e4 ((zero_le_one.trans (grow_pos a.length)).trans w3)
  linarith

/-- Backward substitution, in rows. -/
theorem Computed.backward {f : Fact ι (Dbl L)} {H : ι → ι → Dbl L} (hc : Computed f H) (hL : AddsUp L) (z : ι → Dbl L)
    (hfin : ∀ i, IsFin (substitute (fun i j => f.L j i) z [] f.done.reverse (fun _ => 0) i)) :
    (∀ i, IsFin (z i)) ∧ (∀ i j, IsFin (f.L i j)) ∧ ∀ k,
    |realVal (z k) - ∑ j, lowerEntry f j k * realVal (substitute (fun i j => f.L j i) z [] f.done.reverse (fun _ => 0) j)| ≤
      (ldltGrowth ι - 1) * (∑ j, |lowerEntry f j k| * |realVal (substitute (fun i j => f.L j i) z [] f.done.reverse (fun _ => 0) j)|)
      + Fintype.card ι * ldltGrowth ι * underflow := by
  set x := substitute (fun i j => f.L j i) z [] f.done.reverse (fun _ => 0) with hx
  have hk : ∀ (a : List ι) (k : ι) (c : List ι), f.done = a ++ k :: c →
      x k = z k - Scalar.sum (c.reverse.map fun j => f.L j k * x j) := fun a k c h =>
    (substitute_gen (fun i j => f.L j i) z f.done.reverse [] (fun _ => 0) (by simpa using List.nodup_reverse.mpr hc.nodup)).2
      c.reverse k a.reverse (by rw [h]; simp)
  have hr : ∀ (a : List ι) (k : ι) (c : List ι), f.done = a ++ k :: c → _ := fun a k c h =>
    row_err hL (fun j => f.L j k) (z k) x c.reverse (by rw [← hk a k c h]; exact hfin k)
  refine ⟨fun k => ?_, fun i k => ?_, fun k => ?_⟩
  · obtain ⟨a, c, h⟩ := List.append_of_mem (hc.all k)
    exact (hr a k c h).2.1
  · obtain ⟨a, c, h⟩ := List.append_of_mem (hc.all k)
    by_cases hi : i ∈ c
    · exact ((hr a k c h).1 i (List.mem_reverse.mpr hi)).1
    · rw [hc.upper a k c h i hi]; rfl
  obtain ⟨a, c, h⟩ := List.append_of_mem (hc.all k)
  have hr := (hr a k c h).2.2
  rw [← hk a k c h] at hr
  rw [hc.col h (fun v l => v * realVal (x l)) (by simp), hc.col h (fun v l => |v| * |realVal (x l)|) (by simp)]
  have hlen : c.reverse.length + 1 ≤ Fintype.card ι := by rw [← hc.length, h]; simp
  rw [_root_.one_mul, abs_one, _root_.one_mul, show realVal (z k) - ((c.reverse.map fun j => realVal (f.L j k) * realVal (x j)).sum + realVal (x k))
    = realVal (z k) - realVal (x k) - (c.reverse.map fun j => realVal (f.L j k) * realVal (x j)).sum by ring]
  refine hr.trans ?_
  generalize c.reverse = a at *
  have w1 : (1 + unitRoundoff) ^ 2 ≤ ldltGrowth ι := grow_mono (by omega)
  have w2 : (1 + unitRoundoff) ^ (a.length + 1) ≤ ldltGrowth ι := grow_mono (by omega)
  have w3 : (1 + unitRoundoff) ^ a.length ≤ ldltGrowth ι := grow_mono (by omega)
  have hA : 0 ≤ (a.map fun l => |realVal (f.L l k)| * |realVal (x l)|).sum :=
    List.sum_nonneg fun v hv => by obtain ⟨l, _, rfl⟩ := List.mem_map.mp hv; exact mul_nonneg (abs_nonneg _) (abs_nonneg _)
  have e3 : (a.map fun _ => underflow).sum ≤ Fintype.card ι * underflow := by
    rw [List.map_const', List.sum_replicate, nsmul_eq_mul]
    exact mul_le_mul_of_nonneg_right (Nat.cast_le.mpr (by omega)) under_pos.le
  have e4 : 0 ≤ (a.map fun _ => underflow).sum := by
    rw [List.map_const', List.sum_replicate, nsmul_eq_mul]
    exact mul_nonneg (Nat.cast_nonneg _) under_pos.le
  simp only [abs_mul]
  have g1 := mul_le_mul_of_nonneg_right w1 (abs_nonneg (realVal (x k)))
  have g2 := mul_le_mul_of_nonneg_right w2 hA
  have g3 := mul_le_mul w3 e3 e4 ((zero_le_one.trans (grow_pos a.length)).trans w3)
  linarith

end MiniOpt.LDLT
