import Verif.Lemmas.QPAlpha
import Verif.Lemmas.QPLoop

/-! Initial guess, clamping, absence of exceptions (exact arithmetic). -/

set_option autoImplicit false

namespace MiniOpt.IP

open MiniOpt MiniOpt.Spec

variable {N M K : Nat}

/-- `ClampX` over the reals, for a nonzero slope. -/
theorem clampX_real (c : Ineq ℝ) (x : ℝ) (ha : c.a ≠ 0) :
    ∃ y, c.clampX x = .ok y ∧ y = (if c.a < 0 then min x (c.b / -c.a) else max x (-c.b / c.a)) := by
  unfold Ineq.clampX
  simp only [real_feq, ha, if_false]
  split_ifs
  · exact ⟨_, rfl, by simp⟩
  · exact ⟨_, rfl, by simp⟩

theorem clampX_zero (c : Ineq ℝ) (x : ℝ) (ha : c.a = 0) :
    c.clampX x = .error (.assertion "`a` cannot be zero") := by
  unfold Ineq.clampX; simp [ha]

/-- Feasible half-lines in one variable: `clampX` lands in its own, and never leaves another half-line
that intersects it, provided `x` was in it. -/
theorem clampX_feas {c : Ineq ℝ} {x y : ℝ} (h : c.clampX x = .ok y) : 0 ≤ c.a * y + c.b := by
  by_cases ha : c.a = 0
  · rw [clampX_zero c x ha] at h; cases h
  obtain ⟨y', h', hy⟩ := clampX_real c x ha
  rw [h] at h'; cases h'
  split_ifs at hy with hneg
  · have : y ≤ c.b / -c.a := hy ▸ min_le_right _ _
    have hpos : 0 < -c.a := by linarith
    rw [le_div_iff₀ hpos] at this; linarith
  · have hpos : 0 < c.a := lt_of_le_of_ne (not_lt.mp hneg) (Ne.symm ha)
    have : -c.b / c.a ≤ y := hy ▸ le_max_right _ _
    rw [div_le_iff₀ hpos] at this; linarith

theorem clampX_between {c : Ineq ℝ} {x y w : ℝ} (h : c.clampX x = .ok y) (hw : 0 ≤ c.a * w + c.b) :
    (x ≤ y ∧ y ≤ max x w) ∨ (y ≤ x ∧ min x w ≤ y) := by
  by_cases ha : c.a = 0
  · rw [clampX_zero c x ha] at h; cases h
  obtain ⟨y', h', hy⟩ := clampX_real c x ha
  rw [h] at h'; cases h'
  split_ifs at hy with hneg
  · right
    have hpos : 0 < -c.a := by linarith
    have : w ≤ c.b / -c.a := by rw [le_div_iff₀ hpos]; linarith
    rw [hy]
    exact ⟨min_le_left _ _, min_le_min_left _ this⟩
  · left
    have hpos : 0 < c.a := lt_of_le_of_ne (not_lt.mp hneg) (Ne.symm ha)
    have : -c.b / c.a ≤ w := by rw [div_le_iff₀ hpos]; linarith
    rw [hy]
    exact ⟨le_max_left _ _, max_le_max_left _ this⟩

/-- A half-line containing `x` and `w` contains the clamped value. -/
theorem clampX_keeps {c d : Ineq ℝ} {x y w : ℝ} (h : c.clampX x = .ok y) (hw : 0 ≤ c.a * w + c.b)
    (hdx : 0 ≤ d.a * x + d.b) (hdw : 0 ≤ d.a * w + d.b) : 0 ≤ d.a * y + d.b := by
  rcases clampX_between h hw with ⟨h1, h2⟩ | ⟨h1, h2⟩
  · rcases le_total 0 d.a with hd | hd
    · nlinarith
    · rcases le_max_iff.mp h2 with h2 | h2
      · nlinarith
      · nlinarith
  · rcases le_total 0 d.a with hd | hd
    · rcases min_le_iff.mp h2 with h2 | h2
      · nlinarith
      · nlinarith
    · nlinarith

/-- Clamping by a list of constraints: done constraints stay satisfied. -/
theorem clampAll_feas (p : QP N M K ℝ) (w : Fin N → ℝ) (hw : ∀ m, 0 ≤ ineqVal p w m) :
    ∀ (l done : List (Fin M)) (x x' : Fin N → ℝ), (∀ m ∈ done, 0 ≤ ineqVal p x m) →
      clampAll p l x = .ok x' → ∀ m, m ∈ done ∨ m ∈ l → 0 ≤ ineqVal p x' m := by
  intro l
  induction l with
  | nil =>
    intro done x x' hd h m hm
    cases h
    simp at hm
    exact hd m hm
  | cons i l ih =>
    intro done x x' hd h m hm
    rw [clampAll] at h
    split at h
    · cases h
    · rename_i v hv
      have hdone : ∀ m ∈ i :: done, 0 ≤ ineqVal p (Function.update x (p.con i).var v) m := by
        intro m hm
        unfold ineqVal
        by_cases hvar : (p.con m).var = (p.con i).var
        · rw [hvar, Function.update_self]
          rcases List.mem_cons.mp hm with rfl | hm
          · exact clampX_feas hv
          · have h1 := hd m hm
            have h2 := hw m
            have h3 := hw i
            unfold ineqVal at h1 h2 h3
            rw [hvar] at h1 h2
            exact clampX_keeps (d := (p.con m).toIneq) hv h3 h1 h2
        · rw [Function.update_of_ne hvar]
          rcases List.mem_cons.mp hm with rfl | hm
          · exact absurd rfl hvar
          · exact hd m hm
      refine ih (i :: done) _ x' hdone h m ?_
      rcases hm with hm | hm
      · left; simp [hm]
      · rcases List.mem_cons.mp hm with rfl | hm
        · left; simp
        · right; exact hm

theorem clampAll_ok_of_ne (p : QP N M K ℝ) (ha : ∀ m, (p.con m).a ≠ 0) :
    ∀ (l : List (Fin M)) (x : Fin N → ℝ), ∃ x', clampAll p l x = .ok x' := by
  intro l
  induction l with
  | nil => intro x; exact ⟨x, rfl⟩
  | cons i l ih =>
    intro x
    obtain ⟨y, hy, _⟩ := clampX_real (p.con i).toIneq (x (p.con i).var) (ha i)
    rw [clampAll, hy]
    exact ih _

/-- If every constraint already holds, clamping changes nothing. -/
theorem clampAll_id (p : QP N M K ℝ) (x x' : Fin N → ℝ) :
    ∀ (l : List (Fin M)), (∀ m ∈ l, 0 ≤ ineqVal p x m) → clampAll p l x = .ok x' → x' = x := by
  intro l
  induction l with
  | nil => intro _ h; cases h; rfl
  | cons i l ih =>
    intro hf h
    rw [clampAll] at h
    split at h
    · cases h
    · rename_i v hv
      have hfi := hf i (by simp)
      unfold ineqVal at hfi
      have hvx : v = x (p.con i).var := by
        rcases clampX_between hv (w := x (p.con i).var) hfi with ⟨h1, h2⟩ | ⟨h1, h2⟩
        · exact le_antisymm (by simpa using h2) h1
        · exact le_antisymm h1 (by simpa using h2)
      rw [hvx, Function.update_eq_self] at h
      exact ih (fun m hm => hf m (by simp [hm])) h

/-- Clamping never touches a variable without constraints. -/
theorem clampAll_untouched (p : QP N M K ℝ) (j : Fin N) :
    ∀ (l : List (Fin M)) (x x' : Fin N → ℝ), (∀ m ∈ l, (p.con m).var ≠ j) → clampAll p l x = .ok x' →
      x' j = x j := by
  intro l
  induction l with
  | nil => intro x x' _ h; cases h; rfl
  | cons i l ih =>
    intro x x' hl h
    rw [clampAll] at h
    split at h
    · cases h
    · rw [ih _ _ (fun m hm => hl m (by simp [hm])) h, Function.update_of_ne]
      exact Ne.symm (hl i (by simp))

theorem minSlack_pos : (0 : ℝ) < minSlack := by unfold minSlack; simp only [real_lit]; norm_num

theorem minSlack_val : (minSlack : ℝ) = 1e-9 := by unfold minSlack; simp only [real_lit]; norm_num

theorem finishGuess_ok {p : QP N M K ℝ} {st st' : IPState N M K ℝ} (h : finishGuess p st = .ok st') :
    clampAll p (List.finRange M) st.v.x = .ok st'.v.x ∧ st'.v.y = st.v.y ∧
      (∀ m, st'.v.s m = max minSlack (ineqVal p st'.v.x m)) ∧ (∀ m, st'.v.z m = 1 / st'.v.s m) := by
  unfold finishGuess at h
  split at h
  · cases h
  · rename_i x hx
    cases h
    refine ⟨hx, rfl, ?_, fun _ => rfl⟩
    intro m
    show cmax _ _ = _
    rw [real_cmax]; rfl

theorem initialGuess_finish {E : Eigen N K ℝ} {p : QP N M K ℝ} {g : InitialGuessMethod}
    {st st' : IPState N M K ℝ} (hg : g ≠ .userProvided) (h : initialGuess E p g st = .ok st') :
    ∃ st0, finishGuess p st0 = .ok st' := by
  unfold initialGuess at h
  split at h
  · exact absurd rfl hg
  · exact ⟨_, h⟩
  · split at h
    · cases h
    · exact ⟨_, h⟩

theorem initialGuess_pos {E : Eigen N K ℝ} {p : QP N M K ℝ} {g : InitialGuessMethod}
    {st st' : IPState N M K ℝ} (hg : g ≠ .userProvided) (h : initialGuess E p g st = .ok st') :
    (∀ m, 0 < st'.v.s m) ∧ ∀ m, 0 < st'.v.z m := by
  obtain ⟨st0, h0⟩ := initialGuess_finish hg h
  obtain ⟨_, _, hs, hz⟩ := finishGuess_ok h0
  have hpos : ∀ m, 0 < st'.v.s m := fun m => by
    rw [hs m]; exact lt_max_of_lt_left minSlack_pos
  exact ⟨hpos, fun m => by rw [hz m]; exact one_div_pos.mpr (hpos m)⟩

/-- `computeLDLT` errors. -/
theorem computeLDLT_error {E : Eigen N K ℝ} {p : QP N M K ℝ} {b : Bool} {st : IPState N M K ℝ}
    {e : Fault × IPState N M K ℝ} (h : computeLDLT E p b st = .error e) :
    (e.1 = .failedFactorization ∧ E.ldltInverse (symRed (fillH p b st)) = none) ∨
      (b = true ∧ ∃ m, ¬ 0 < st.v.s m) := by
  unfold computeLDLT at h
  split_ifs at h with hs
  · dsimp only at h
    split at h
    · rename_i hn
      cases h; exact Or.inl ⟨rfl, hn⟩
    · cases h
  · right
    simp only [not_or] at hs
    push Not at hs
    refine ⟨by simpa using hs.1, ?_⟩
    obtain ⟨m, hm⟩ := hs.2
    exact ⟨m, not_lt.mpr hm⟩

theorem iterate_error {E : Eigen N K ℝ} {p : QP N M K ℝ} {mu : ℝ} {s : BarrierStrategy}
    {st : IPState N M K ℝ} {e : Fault × IPState N M K ℝ}
    (h : iterate E p mu s st = .error e) :
    (e.1 = .failedFactorization ∧
      E.ldltInverse (symRed (fillH p true (evaluateKKT p true st))) = none) ∨ ∃ m, ¬ 0 < st.v.s m := by
  unfold iterate at h
  split at h
  · rename_i e' he
    cases h
    rcases computeLDLT_error he with h | ⟨_, h⟩
    · exact Or.inl h
    · right; simpa [evaluateKKT_v] using h
  · cases h

theorem finishGuess_error {p : QP N M K ℝ} {st : IPState N M K ℝ} {e : Fault × IPState N M K ℝ}
    (h : finishGuess p st = .error e) :
    e.1 = .assertion "`a` cannot be zero" ∧ ∃ m, (p.con m).a = 0 := by
  have key : ∀ (l : List (Fin M)) (x : Fin N → ℝ) e, clampAll p l x = .error e →
      e.1 = .assertion "`a` cannot be zero" ∧ ∃ m, (p.con m).a = 0 := by
    intro l
    induction l with
    | nil => intro x e h; cases h
    | cons i l ih =>
      intro x e h
      rw [clampAll] at h
      by_cases ha : (p.con i).a = 0
      · rw [clampX_zero (p.con i).toIneq _ ha] at h
        cases h
        exact ⟨rfl, i, ha⟩
      · obtain ⟨y, hy, _⟩ := clampX_real (p.con i).toIneq (x (p.con i).var) ha
        rw [hy] at h
        exact ih _ _ h
  unfold finishGuess at h
  split at h
  · rename_i e' x he
    cases h
    exact key _ _ _ he
  · cases h

theorem initialGuess_error {E : Eigen N K ℝ} {p : QP N M K ℝ} {g : InitialGuessMethod}
    {st : IPState N M K ℝ} {e : Fault × IPState N M K ℝ} (h : initialGuess E p g st = .error e) :
    (e.1 = .assertion "`a` cannot be zero" ∧ ∃ m, (p.con m).a = 0) ∨
      (e.1 = .failedFactorization ∧ ∃ H, E.ldltInverse H = none) := by
  unfold initialGuess at h
  split at h
  · cases h
  · exact Or.inl (finishGuess_error h)
  · split at h
    · rename_i e' he
      cases h
      rcases computeLDLT_error he with h | ⟨h, _⟩
      · exact Or.inr ⟨h.1, _, h.2⟩
      · cases h
    · exact Or.inl (finishGuess_error h)

end MiniOpt.IP
