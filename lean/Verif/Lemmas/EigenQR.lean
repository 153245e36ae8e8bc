import Verif.Lemmas.EigenLLT

/-!
# Householder reflections and the pivoting loop (exact arithmetic)
-/

set_option autoImplicit false

namespace MiniOpt.QR

open MiniOpt MiniOpt.Spec

variable {n : Nat}

theorem below_real (k : Fin n) (f : Fin n → ℝ) : below k f = ∑ i, if k < i then f i else 0 := by
  unfold below
  split_ifs with h
  · refine (Finset.sum_eq_zero fun i _ => if_neg ?_).symm
    intro hi
    have := Fin.lt_def.mp hi
    omega
  · rw [real_sum]
    have e : (((List.finRange n).filter fun i => k < i).map f).sum = ((List.finRange n).map fun i => if k < i then f i else 0).sum := by
      induction List.finRange n with
      | nil => rfl
      | cons a l ih =>
        by_cases ha : k < a
        · simp [ha, ih]
        · simp [ha, ih]
    rw [e, ← List.ofFn_eq_map, List.sum_ofFn]

/-- The vector of a reflection. -/
noncomputable def Refl.vec (r : Refl n ℝ) : Fin n → ℝ := fun i => if i < r.k then 0 else if i = r.k then 1 else r.ess i

theorem vec_sum (r : Refl n ℝ) (x : Fin n → ℝ) : ∑ i, r.vec i * x i = below r.k (fun i => r.ess i * x i) + x r.k := by
  rw [below_real]
  have e : ∀ i, r.vec i * x i = (if r.k < i then r.ess i * x i else 0) + if i = r.k then x r.k else 0 := fun i => by
    unfold Refl.vec
    rcases lt_trichotomy i r.k with h | h | h
    · rw [if_pos h, if_neg (not_lt.mpr h.le), if_neg h.ne]; ring
    · rw [h]; simp
    · rw [if_neg (not_lt.mpr h.le), if_neg h.ne', if_pos h, if_neg h.ne']; ring
  rw [Finset.sum_congr rfl fun i _ => e i, Finset.sum_add_distrib, Finset.sum_ite_eq' Finset.univ r.k, if_pos (Finset.mem_univ _)]

theorem apply_real (r : Refl n ℝ) (x : Fin n → ℝ) (i : Fin n) :
    r.apply x i = x i - r.tau * r.vec i * ∑ j, r.vec j * x j := by
  unfold Refl.apply
  split_ifs with h1 h2
  · dsimp only
    have hlast : ∀ j : Fin n, j ≠ r.k → j < r.k := fun j hj => by
      refine lt_of_le_of_ne (Fin.le_def.mpr ?_) hj
      have := j.isLt
      omega
    rw [vec_sum]
    have hb : below r.k (fun i => r.ess i * x i) = 0 := if_pos h1
    rw [hb]
    by_cases hi : i = r.k
    · rw [if_pos hi]
      have : r.vec i = 1 := by simp [Refl.vec, hi]
      rw [this, hi]; ring
    · rw [if_neg hi]
      have : r.vec i = 0 := by simp [Refl.vec, hlast i hi]
      rw [this]; ring
  · rw [real_feq] at h2
    rw [h2]; ring
  · dsimp only
    rw [vec_sum]
    unfold Refl.vec
    split_ifs with h3 h4
    · ring
    · ring
    · ring

/-- The reflection is orthogonal. -/
def Refl.Good (r : Refl n ℝ) : Prop := r.tau = 0 ∨ r.tau * ∑ i, r.vec i * r.vec i = 2

theorem apply_dot {r : Refl n ℝ} (hr : r.Good) (x y : Fin n → ℝ) : ∑ i, r.apply x i * r.apply y i = ∑ i, x i * y i := by
  have e : ∀ i, r.apply x i * r.apply y i = x i * y i - r.tau * (∑ j, r.vec j * y j) * (r.vec i * x i)
      - r.tau * (∑ j, r.vec j * x j) * (r.vec i * y i)
      + r.tau * (∑ j, r.vec j * x j) * (r.tau * ∑ j, r.vec j * y j) * (r.vec i * r.vec i) := fun i => by
    rw [apply_real, apply_real]; ring
  rw [Finset.sum_congr rfl fun i _ => e i, Finset.sum_add_distrib, Finset.sum_sub_distrib, Finset.sum_sub_distrib,
    ← Finset.mul_sum, ← Finset.mul_sum, ← Finset.mul_sum]
  rcases hr with h | h
  · rw [h]; ring
  · have : r.tau * (∑ j, r.vec j * x j) * (r.tau * ∑ j, r.vec j * y j) * (∑ i, r.vec i * r.vec i)
        = r.tau * (∑ j, r.vec j * x j) * (∑ j, r.vec j * y j) * (r.tau * ∑ i, r.vec i * r.vec i) := by ring
    rw [this, h]; ring

theorem apply_apply {r : Refl n ℝ} (hr : r.Good) (x : Fin n → ℝ) : r.apply (r.apply x) = x := by
  funext i
  have hs : ∑ j, r.vec j * r.apply x j = (∑ j, r.vec j * x j) - r.tau * (∑ j, r.vec j * r.vec j) * ∑ j, r.vec j * x j := by
    have e : ∀ j, r.vec j * r.apply x j = r.vec j * x j - (r.tau * ∑ j, r.vec j * x j) * (r.vec j * r.vec j) := fun j => by
      rw [apply_real]; ring
    rw [Finset.sum_congr rfl fun i _ => e i, Finset.sum_sub_distrib, ← Finset.mul_sum]; ring
  rw [apply_real, hs, apply_real]
  rcases hr with h | h
  · rw [h]; ring
  · rw [h]; ring

theorem apply_above (r : Refl n ℝ) (x : Fin n → ℝ) {i : Fin n} (hi : i < r.k) : r.apply x i = x i := by
  have : r.vec i = 0 := by simp [Refl.vec, hi]
  rw [apply_real, this]; ring

theorem apply_fixed (r : Refl n ℝ) {x : Fin n → ℝ} (hx : ∀ i, r.k ≤ i → x i = 0) : r.apply x = x := by
  funext i
  have : ∑ j, r.vec j * x j = 0 := Finset.sum_eq_zero fun j _ => by
    rcases lt_or_ge j r.k with h | h
    · simp [Refl.vec, h]
    · rw [hx j h, mul_zero]
  rw [apply_real, this]; ring

theorem apply_linear (r : Refl n ℝ) {m : Nat} (c : Fin m → ℝ) (x : Fin m → Fin n → ℝ) (i : Fin n) :
    r.apply (fun i => ∑ j, x j i * c j) i = ∑ j, r.apply (x j) i * c j := by
  rw [apply_real]
  have e : ∑ j, r.vec j * ∑ l, x l j * c l = ∑ l, (∑ j, r.vec j * x l j) * c l := by
    simp_rw [Finset.mul_sum, Finset.sum_mul]
    rw [Finset.sum_comm]
    exact Finset.sum_congr rfl fun l _ => Finset.sum_congr rfl fun j _ => by ring
  rw [e, Finset.mul_sum, ← Finset.sum_sub_distrib]
  exact Finset.sum_congr rfl fun l _ => by rw [apply_real]; ring

/-- The squares of the entries from row `k` on. -/
noncomputable def tailSq (k : Nat) (x : Fin n → ℝ) : ℝ := ∑ i : Fin n, if k ≤ i.val then x i * x i else 0

theorem tailSq_nonneg (k : Nat) (x : Fin n → ℝ) : 0 ≤ tailSq k x :=
  Finset.sum_nonneg fun i _ => by split_ifs; exacts [mul_self_nonneg _, le_refl _]

theorem tailSq_succ (k : Fin n) (x : Fin n → ℝ) : tailSq k.val x = x k * x k + tailSq (k.val + 1) x := by
  unfold tailSq
  have e : ∀ i : Fin n, (if k.val ≤ i.val then x i * x i else 0)
      = (if i = k then x k * x k else 0) + if k.val + 1 ≤ i.val then x i * x i else 0 := fun i => by
    by_cases hi : i = k
    · subst hi; simp
    · have : i.val ≠ k.val := fun h => hi (Fin.ext h)
      by_cases h : k.val ≤ i.val
      · rw [if_pos h, if_neg hi, if_pos (by omega), zero_add]
      · rw [if_neg h, if_neg hi, if_neg (by omega), zero_add]
  rw [Finset.sum_congr rfl fun i _ => e i, Finset.sum_add_distrib, Finset.sum_ite_eq' Finset.univ k, if_pos (Finset.mem_univ _)]

theorem below_sq (k : Fin n) (x : Fin n → ℝ) : below k (fun i => x i * x i) = tailSq (k.val + 1) x := by
  rw [below_real]
  rfl

theorem tailSq_zero {k : Nat} {x : Fin n → ℝ} (h : tailSq k x ≤ 0) : ∀ i : Fin n, k ≤ i.val → x i = 0 := by
  intro i hi
  have hnn : ∀ j ∈ (Finset.univ : Finset (Fin n)), 0 ≤ if k ≤ j.val then x j * x j else 0 := fun j _ => by
    split_ifs; exacts [mul_self_nonneg _, le_refl _]
  have := (Finset.sum_eq_zero_iff_of_nonneg hnn).mp (le_antisymm h (tailSq_nonneg k x)) i (Finset.mem_univ i)
  rw [if_pos hi] at this
  exact mul_self_eq_zero.mp this

theorem reflect_aux (k : Fin n) (x : Fin n → ℝ) (b t : ℝ) (hb : b * b = x k * x k + t) (hb0 : b ≠ 0) (hne : x k - b ≠ 0)
    (ht : t = tailSq (k.val + 1) x) :
    (⟨k, fun i => x i / (x k - b), (b - x k) / b⟩ : Refl n ℝ).k = k ∧
    (⟨k, fun i => x i / (x k - b), (b - x k) / b⟩ : Refl n ℝ).Good ∧ b * b = tailSq k.val x ∧
    ∀ i, (⟨k, fun i => x i / (x k - b), (b - x k) / b⟩ : Refl n ℝ).apply x i = if i < k then x i else if i = k then b else 0 := by
  set r : Refl n ℝ := ⟨k, fun i => x i / (x k - b), (b - x k) / b⟩ with hr
  have hvx : ∑ i, r.vec i * x i = -b := by
    rw [vec_sum]
    have e : below r.k (fun i => r.ess i * x i) = t / (x k - b) := by
      rw [ht, below_real, tailSq, div_eq_mul_inv, Finset.sum_mul]
      refine Finset.sum_congr rfl fun i _ => ?_
      show (if k < i then x i / (x k - b) * x i else 0) = _
      by_cases h : k < i
      · rw [if_pos h, if_pos (Nat.succ_le_of_lt (Fin.lt_def.mp h))]; ring
      · rw [if_neg h, if_neg (show ¬ k.val + 1 ≤ i.val from fun h' => h (Fin.lt_def.mpr h')), zero_mul]
    rw [e]
    show t / (x k - b) + x k = -b
    field_simp
    linarith
  have hvv : (∑ i, r.vec i * r.vec i) * ((x k - b) * (x k - b)) = (x k - b) * (x k - b) + t := by
    rw [vec_sum, below_real, ht, tailSq, add_mul, Finset.sum_mul, add_comm]
    have hk : r.vec r.k = 1 := by simp [Refl.vec]
    rw [hk, one_mul]
    congr 1
    refine Finset.sum_congr rfl fun i _ => ?_
    show (if k < i then x i / (x k - b) * r.vec i else 0) * _ = _
    by_cases h : k < i
    · have hv : r.vec i = x i / (x k - b) := by
        show (if i < k then 0 else if i = k then 1 else x i / (x k - b)) = _
        rw [if_neg (not_lt.mpr h.le), if_neg h.ne']
      rw [if_pos h, if_pos (Nat.succ_le_of_lt (Fin.lt_def.mp h)), hv]
      field_simp
    · rw [if_neg h, if_neg (show ¬ k.val + 1 ≤ i.val from fun h' => h (Fin.lt_def.mpr h')), zero_mul]
  refine ⟨rfl, Or.inr ?_, by rw [tailSq_succ, hb, ht], fun i => ?_⟩
  · have h2 : (x k - b) * (x k - b) + t = 2 * (b * (b - x k)) := by linarith
    rw [h2] at hvv
    have hd : ∑ i, r.vec i * r.vec i = 2 * (b * (b - x k)) / ((x k - b) * (x k - b)) := by
      rw [← hvv]; field_simp
    rw [hd]
    show (b - x k) / b * _ = 2
    have : b - x k ≠ 0 := fun h => hne (by linarith)
    field_simp
    ring
  · rw [apply_real, hvx]
    show x i - (b - x k) / b * (if i < k then 0 else if i = k then 1 else x i / (x k - b)) * -b = _
    split_ifs with h3 h4
    · ring
    · rw [h4]; field_simp; ring
    · field_simp; ring

/-- What `makeHouseholder` returns. -/
theorem reflect_spec (k : Fin n) (x : Fin n → ℝ) :
    (reflect 0 k x).1.k = k ∧ (reflect 0 k x).1.Good ∧ (reflect 0 k x).2 * (reflect 0 k x).2 = tailSq k.val x ∧
    ∀ i, (reflect 0 k x).1.apply x i = if i < k then x i else if i = k then (reflect 0 k x).2 else 0 := by
  have hsucc := tailSq_succ k x
  have hnn := tailSq_nonneg (k.val + 1) x
  unfold reflect
  dsimp only
  rw [below_sq]
  set t := tailSq (k.val + 1) x with ht
  split_ifs with h1 h2
  · have hz := tailSq_zero h1
    have ht0 : t = 0 := le_antisymm h1 hnn
    refine ⟨rfl, Or.inl rfl, by rw [hsucc, ht0, add_zero], fun i => ?_⟩
    rw [apply_real]
    dsimp only
    rw [zero_mul, zero_mul, sub_zero]
    split_ifs with h3 h4
    · rfl
    · rw [h4]
    · refine hz i ?_
      have h5 : k ≤ i := not_lt.mp h3
      have h6 : i.val ≠ k.val := fun h => h4 (Fin.ext h)
      have := Fin.le_def.mp h5
      omega
  all_goals
    have htpos : 0 < t := not_le.mp h1
    have hsum : 0 < x k * x k + t := by have := mul_self_nonneg (x k); linarith
    have hr := Real.mul_self_sqrt hsum.le
    have hrpos := Real.sqrt_pos.mpr hsum
    rw [real_sqrt]
    set r := Real.sqrt (x k * x k + t) with hrdef
  · exact reflect_aux k x (-r) t (by rw [neg_mul_neg]; exact hr) (by linarith) (by have : 0 < x k - -r := by linarith
                                                                                   exact this.ne') ht
  · exact reflect_aux k x r t hr hrpos.ne' (by have : x k - r < 0 := by linarith [not_le.mp h2]
                                               exact this.ne) ht

/-! ## The loop -/

variable {ι : Type} [DecidableEq ι]

/-- All reflections, in the order in which they were found. -/
noncomputable def run (ps : List (Pivot n ι ℝ)) (x : Fin n → ℝ) : Fin n → ℝ := (ps.map (·.refl)).foldl (fun x r => r.apply x) x

omit [DecidableEq ι] in
theorem run_cons (p : Pivot n ι ℝ) (ps : List (Pivot n ι ℝ)) (x : Fin n → ℝ) : run (p :: ps) x = run ps (p.refl.apply x) := rfl

omit [DecidableEq ι] in
theorem run_fixed : ∀ (ps : List (Pivot n ι ℝ)) (k : Nat) (x : Fin n → ℝ), (∀ p ∈ ps, k ≤ p.refl.k.val) →
    (∀ i : Fin n, k ≤ i.val → x i = 0) → run ps x = x
  | [], _, _, _, _ => rfl
  | p :: ps, k, x, hk, hx => by
    rw [run_cons, apply_fixed p.refl fun i hi => hx i (le_trans (hk p (by simp)) (Fin.le_def.mp hi))]
    exact run_fixed ps k x (fun q hq => hk q (by simp [hq])) hx

omit [DecidableEq ι] in
theorem run_dot : ∀ (ps : List (Pivot n ι ℝ)), (∀ p ∈ ps, p.refl.Good) → ∀ x y : Fin n → ℝ,
    ∑ i, run ps x i * run ps y i = ∑ i, x i * y i
  | [], _, _, _ => rfl
  | p :: ps, h, x, y => by
    rw [run_cons, run_cons, run_dot ps (fun q hq => h q (by simp [hq])), apply_dot (h p (by simp))]

omit [DecidableEq ι] in
/-- Undoing the reflections, last one first: what `matrixQ()` does. -/
theorem unrun : ∀ (ps : List (Pivot n ι ℝ)), (∀ p ∈ ps, p.refl.Good) → ∀ x : Fin n → ℝ,
    (ps.map (·.refl)).foldr Refl.apply (run ps x) = x
  | [], _, _ => rfl
  | p :: ps, h, x => by
    rw [run_cons, List.map_cons, List.foldr_cons, unrun ps (fun q hq => h q (by simp [hq])), apply_apply (h p (by simp))]

theorem downdate_real (dd : ℝ) (k : Fin n) (x : Fin n → ℝ) (upd dir : ℝ) (hu : upd = Real.sqrt (tailSq k.val x)) :
    (downdate dd k x upd dir).1 = Real.sqrt (tailSq (k.val + 1) x) := by
  have hsucc := tailSq_succ k x
  have hnn := tailSq_nonneg (k.val + 1) x
  have hsq : upd * upd = x k * x k + tailSq (k.val + 1) x := by
    rw [hu, Real.mul_self_sqrt (tailSq_nonneg _ _), hsucc]
  have hpos : 0 ≤ upd := by rw [hu]; exact Real.sqrt_nonneg _
  unfold downdate
  rw [below_sq]
  simp only [real_feq, real_abs, real_sqrt]
  by_cases h0 : upd = 0
  · rw [if_pos h0]
    rw [h0] at hsq
    have : tailSq (k.val + 1) x = 0 := by have := mul_self_nonneg (x k); linarith
    rw [this, Real.sqrt_zero, h0]
  · rw [if_neg h0]
    have ht : (1 + |x k| / upd) * (1 - |x k| / upd) = tailSq (k.val + 1) x / (upd * upd) := by
      have ha : |x k| * |x k| = x k * x k := abs_mul_abs_self _
      rw [eq_div_iff (mul_ne_zero h0 h0)]
      have : (1 + |x k| / upd) * (1 - |x k| / upd) * (upd * upd) = upd * upd - |x k| * |x k| := by field_simp; ring
      rw [this, ha, hsq]; ring
    have hge : 0 ≤ tailSq (k.val + 1) x / (upd * upd) := div_nonneg hnn (mul_self_nonneg _)
    rw [ht, if_neg (not_lt.mpr hge)]
    split_ifs
    · rfl
    · dsimp only
      rw [Real.sqrt_div' _ (mul_self_nonneg _), Real.sqrt_mul_self hpos]
      field_simp

/-- What the loop produces. -/
theorem steps_spec (dd : ℝ) : ∀ (m k : Nat) (rest : List ι) (s : Cols n ι ℝ), rest.length = m → rest.Nodup → k + m ≤ n →
    (∀ j ∈ rest, s.upd j = Real.sqrt (tailSq k (s.col j))) →
    ((steps 0 dd m k rest s).map (·.id)).Perm rest ∧ (∀ p ∈ steps 0 dd m k rest s, p.refl.Good) ∧
    ∀ (j : Nat) (p : Pivot n ι ℝ), (steps 0 dd m k rest s)[j]? = some p → p.refl.k.val = k + j ∧ p.norm = |p.R p.refl.k| ∧
      ∀ i, run (steps 0 dd m k rest s) (s.col p.id) i = if i.val ≤ k + j then p.R i else 0
  | 0, k, rest, s, hl, _, _, _ => by
    rw [List.length_eq_zero_iff.mp hl]
    exact ⟨List.Perm.refl _, fun p hp => by simp [steps] at hp, fun j p hp => by simp [steps] at hp⟩
  | m + 1, k, [], s, hl, _, _, _ => by simp at hl
  | m + 1, k, c :: rest, s, hl, hn, hkm, hu => by
    have hk : k < n := by omega
    have hl' : rest.length = m := by simpa using hl
    set p := LDLT.firstMax s.upd c rest with hp
    set rest' := if p = c then rest else rest.map fun i => if i = p then c else i with hrest'
    set rb := reflect 0 (⟨k, hk⟩ : Fin n) (s.col p) with hrb
    set s' : Cols n ι ℝ := ⟨fun j => rb.1.apply (s.col j),
      fun j => (downdate dd ⟨k, hk⟩ (rb.1.apply (s.col j)) (s.upd j) (s.dir j)).1,
      fun j => (downdate dd ⟨k, hk⟩ (rb.1.apply (s.col j)) (s.upd j) (s.dir j)).2⟩ with hs'
    set P : Pivot n ι ℝ := ⟨p, s.upd p, rb.1, fun i => if i.val = k then rb.2 else if i.val < k then s.col p i else rb.1.ess i⟩ with hP
    have hrec : steps 0 dd (m + 1) k (c :: rest) s = P :: steps 0 dd m (k + 1) rest' s' := by
      rw [steps]
      rw [dif_pos hk]
    have hpm : p ∈ c :: rest := LDLT.firstMax_mem s.upd c rest
    have hperm : (p :: rest').Perm (c :: rest) := by
      by_cases hpc : p = c
      · rw [hrest', if_pos hpc, hpc]
      · rw [hrest', if_neg hpc]
        exact LDLT.swap_perm hn ((List.mem_cons.mp hpm).resolve_left hpc)
    obtain ⟨r1, r2, r3, r4⟩ := reflect_spec (⟨k, hk⟩ : Fin n) (s.col p)
    rw [← hrb] at r1 r2 r3 r4
    have htail : ∀ x : Fin n → ℝ, tailSq k (rb.1.apply x) = tailSq k x := fun x => by
      have h1 := apply_dot r2 x x
      have h2 : ∀ y : Fin n → ℝ, ∑ i, y i * y i = tailSq k y + ∑ i : Fin n, if k ≤ i.val then 0 else y i * y i := fun y => by
        rw [tailSq, ← Finset.sum_add_distrib]
        exact Finset.sum_congr rfl fun i _ => by split_ifs <;> simp
      rw [h2, h2 x] at h1
      have h3 : (∑ i : Fin n, if k ≤ i.val then 0 else rb.1.apply x i * rb.1.apply x i)
          = ∑ i : Fin n, if k ≤ i.val then 0 else x i * x i := by
        refine Finset.sum_congr rfl fun i _ => ?_
        by_cases hi : k ≤ i.val
        · rw [if_pos hi, if_pos hi]
        · rw [if_neg hi, if_neg hi, apply_above rb.1 x (by rw [r1]; exact Fin.lt_def.mpr (not_le.mp hi))]
      rw [h3] at h1
      linarith
    have hnd : (p :: rest').Nodup := hperm.nodup_iff.mpr hn
    obtain ⟨i1, i2, i3⟩ := steps_spec dd m (k + 1) rest' s' (by have := hperm.length_eq; simp at this; omega)
      (List.nodup_cons.mp hnd).2 (by omega) (fun j hj => by
        have hjm : j ∈ c :: rest := hperm.mem_iff.mp (by simp [hj])
        exact downdate_real dd ⟨k, hk⟩ (rb.1.apply (s.col j)) (s.upd j) (s.dir j) (by rw [hu j hjm, htail]))
    have hlow : ∀ q ∈ steps 0 dd m (k + 1) rest' s', k + 1 ≤ q.refl.k.val := fun q hq => by
      obtain ⟨j, hj⟩ := List.getElem?_of_mem hq
      have := (i3 j q hj).1
      omega
    rw [hrec]
    refine ⟨?_, ?_, ?_⟩
    · rw [List.map_cons]
      exact (List.Perm.cons p i1).trans hperm
    · intro q hq
      rcases List.mem_cons.mp hq with rfl | hq
      · exact r2
      · exact i2 q hq
    · intro j q hq
      cases j with
      | zero =>
        have hq' : P = q := by simpa using hq
        subst hq'
        have hkk : P.refl.k = ⟨k, hk⟩ := r1
        refine ⟨by rw [hkk]; rfl, ?_, fun i => ?_⟩
        · rw [hkk]
          show s.upd p = |if k = k then rb.2 else _|
          rw [if_pos rfl, hu p hpm, ← r3, Real.sqrt_mul_self_eq_abs]
        · rw [run_cons]
          show run _ (rb.1.apply (s.col p)) i = _
          have hz : ∀ i : Fin n, k + 1 ≤ i.val → rb.1.apply (s.col p) i = 0 := fun i hi => by
            rw [r4, if_neg (by rw [Fin.lt_def]; dsimp only; omega), if_neg (by rw [Fin.ext_iff]; dsimp only; omega)]
          rw [run_fixed _ (k + 1) _ hlow hz, r4]
          show _ = if i.val ≤ k + 0 then (if i.val = k then rb.2 else if i.val < k then s.col p i else rb.1.ess i) else 0
          rcases lt_trichotomy i.val k with h | h | h
          · rw [if_pos (Fin.lt_def.mpr h), if_pos (by omega), if_neg (by omega), if_pos h]
          · rw [if_neg (by rw [Fin.lt_def]; dsimp only; omega), if_pos (by rw [Fin.ext_iff]; exact h), if_pos (by omega), if_pos h]
          · rw [if_neg (by rw [Fin.lt_def]; dsimp only; omega), if_neg (by rw [Fin.ext_iff]; dsimp only; omega), if_neg (by omega)]
      | succ j =>
        have hq' : (steps 0 dd m (k + 1) rest' s')[j]? = some q := by simpa using hq
        obtain ⟨j1, j2, j3⟩ := i3 j q hq'
        refine ⟨by omega, j2, fun i => ?_⟩
        rw [run_cons]
        show run _ (rb.1.apply (s.col q.id)) i = _
        have := j3 i
        rw [show k + 1 + j = k + (j + 1) by omega] at this
        exact this

end MiniOpt.QR
