import Verif.Lemmas.F64More
import Verif.Model.QP

/-!
# C01, C03, C04 in binary64: bounds on single variables

`Dbl L` is the IEEE binary64 instance of the arithmetic; nothing here depends on `L`.
-/

set_option autoImplicit false

namespace MiniOpt.Props

open MiniOpt MiniOpt.F64

variable {L : Libm}

/-- A double with a numerical value. -/
abbrev Dbl.Finite (x : Dbl L) : Prop := Scalar.isFinite x

theorem dbl_one_mul (x : Dbl L) : (1 : Dbl L) * x = x := by
  show F64.mul (F64.round false 1) x = x
  rw [round_one]; exact F64.one_mul x

theorem dbl_neg_one_mul (x : Dbl L) : (-1 : Dbl L) * x = -x := by
  show F64.mul (F64.neg (F64.round false 1)) x = F64.neg x
  rw [round_one]; exact F64.neg_one_mul x

theorem dbl_div_one (x : Dbl L) : x / (1 : Dbl L) = x := by
  show F64.div x (F64.round false 1) = x
  rw [round_one]; exact F64.div_one x

theorem dbl_neg_neg (x : Dbl L) : - -x = x := F64.neg_neg x

theorem finite_ne_nan {x : Dbl L} (h : Dbl.Finite x) : x ≠ F64.nan := by
  rintro rfl; exact absurd h (by show ¬ (F64.isFinite .nan = true); decide)

theorem finite_not_inf {x : Dbl L} (h : Dbl.Finite x) (s : Bool) : x ≠ F64.inf s := by
  rintro rfl; exact absurd h (by show ¬ (F64.isFinite (.inf s) = true); simp [F64.isFinite])

theorem dbl_not_lt {x y : Dbl L} (hx : x ≠ F64.nan) (hy : y ≠ F64.nan) (h : ¬ x < y) : y ≤ x :=
  (F64.not_lt_iff hx hy).mp (Bool.eq_false_iff.mpr h)

theorem dbl_not_le {x y : Dbl L} (hx : x ≠ F64.nan) (hy : y ≠ F64.nan) (h : ¬ x ≤ y) : y < x :=
  (F64.not_le_iff hx hy).mp (Bool.eq_false_iff.mpr h)

/-- A double as an element of the arithmetic `Dbl L`. -/
def toDbl (L : Libm) (x : F64) : Dbl L := x

/-- **C03** in binary64, for *all* doubles including infinities and NaN: the bound test is the comparison, except that
an infinite value is not accepted by the infinite bound of the same sign (the code computes `inf - inf`). -/
theorem C03_double (i : Int) (v x : Dbl L) :
    ((varGe i v).isFeasible x ↔ v ≤ x ∧ ¬ (x = v ∧ ∃ s, v = F64.inf s)) ∧
    ((varLe i v).isFeasible x ↔ x ≤ v ∧ ¬ (x = v ∧ ∃ s, v = F64.inf s)) := by
  have key : ∀ a b : Dbl L, ((0 : Dbl L) ≤ a + -b) ↔ b ≤ a ∧ ¬ (a = b ∧ ∃ s, b = F64.inf s) := by
    intro a b
    by_cases h : ∃ s, a = F64.inf s ∧ b = F64.inf s
    · obtain ⟨s, rfl, rfl⟩ := h
      constructor
      · intro h
        exfalso
        have : F64.le (F64.zero false) (F64.add (.inf s) (F64.neg (.inf s))) = true := h
        cases s <;> simp [F64.add, F64.neg, F64.le_nan_right] at this
      · rintro ⟨-, h⟩
        exact absurd ⟨rfl, s, rfl⟩ h
    · have := F64.sub_nonneg_iff a b h
      constructor
      · intro h1
        exact ⟨this.mp h1, fun ⟨h2, s, h3⟩ => h ⟨s, h2.trans h3, h3⟩⟩
      · rintro ⟨h1, -⟩
        exact this.mpr h1
  constructor
  · show (0 : Dbl L) ≤ 1 * x + -v ↔ _
    rw [dbl_one_mul]; exact key x v
  · show (0 : Dbl L) ≤ -1 * x + v ↔ _
    rw [dbl_neg_one_mul]
    have : (-x + v : Dbl L) = v + -x := F64.add_comm _ _
    rw [this]
    refine (key v x).trans ⟨fun h => ⟨h.1, fun h2 => h.2 ⟨h2.1.symm, ?_⟩⟩, fun h => ⟨h.1, fun h2 => h.2 ⟨h2.1.symm, ?_⟩⟩⟩
    · rw [h2.1]; exact h2.2
    · rw [h2.1]; exact h2.2

/-- **C03** as a user reads it: for finite doubles the two tests are exactly `x >= v` and `x <= v`. -/
theorem C03_double_finite (i : Int) (v x : Dbl L) (hv : Dbl.Finite v) :
    ((varGe i v).isFeasible x ↔ v ≤ x) ∧ ((varLe i v).isFeasible x ↔ x ≤ v) := by
  have h := C03_double i v x
  have hn : ¬ (x = v ∧ ∃ s, v = F64.inf s) := fun ⟨_, s, hs⟩ => finite_not_inf hv s hs
  exact ⟨h.1.trans (and_iff_left hn), h.2.trans (and_iff_left hn)⟩

/-- Non-vacuity: two neighbouring subnormal numbers are told apart. -/
example : (F64.le (F64.round false (F64.pow2 (-1074))) (F64.round false (2 * F64.pow2 (-1074))) = true) ∧
    F64.le (F64.round false (2 * F64.pow2 (-1074))) (F64.round false (F64.pow2 (-1074))) = false ∧
    F64.isFinite (F64.round false (F64.pow2 (-1074))) = true := by decide +kernel

theorem clamp_varGe (i : Int) (v x : Dbl L) : (varGe i v).clampX x = .ok (if x < v then v else x) := by
  have h1 : ¬ Scalar.feq (1 : Dbl L) 0 := by
    show ¬ (F64.eq (F64.round false 1) (F64.zero false) = true); decide +kernel
  have h2 : ¬ (1 : Dbl L) < 0 := by
    show ¬ (F64.lt (F64.round false 1) (F64.zero false) = true); decide +kernel
  unfold Ineq.clampX varGe
  simp only [if_neg h1, if_neg h2]
  rw [dbl_neg_neg, dbl_div_one]
  rfl

theorem clamp_varLe (i : Int) (v x : Dbl L) : (varLe i v).clampX x = .ok (if v < x then v else x) := by
  have h1 : ¬ Scalar.feq (-1 : Dbl L) 0 := by
    show ¬ (F64.eq (F64.neg (F64.round false 1)) (F64.zero false) = true); decide +kernel
  have h2 : (-1 : Dbl L) < 0 := by
    show (F64.lt (F64.neg (F64.round false 1)) (F64.zero false) = true); decide +kernel
  unfold Ineq.clampX varLe
  simp only [if_neg h1, if_pos h2]
  rw [dbl_neg_neg, dbl_div_one]
  rfl

/-- **C01** in binary64 for `Var` bounds with a finite value, and any `x` that is not NaN: `ClampX` does not throw, its
result satisfies the bound, is `x` if `x` does and the bound itself otherwise. -/
theorem C01_double_var (i : Int) (v x : Dbl L) (hv : Dbl.Finite v) (hx : x ≠ F64.nan) (c : Ineq (Dbl L))
    (hc : c = varGe i v ∨ c = varLe i v) :
    ∃ y, c.clampX x = .ok y ∧ c.isFeasible y ∧ (c.isFeasible x → y = x) ∧ (¬ c.isFeasible x → y = v) ∧
      c.clampX y = .ok y := by
  have hself : ¬ (v < v) := by
    intro h
    have h1 : F64.lt v v = true := h
    rw [(F64.not_lt_iff (finite_ne_nan hv) (finite_ne_nan hv)).mpr (F64.le_refl (finite_ne_nan hv))] at h1
    cases h1
  rcases hc with rfl | rfl
  · rw [clamp_varGe]
    simp only [(C03_double_finite i v _ hv).1]
    by_cases h : x < v
    · rw [if_pos h]
      refine ⟨v, rfl, F64.le_refl (finite_ne_nan hv), fun h1 => ?_, fun _ => rfl, ?_⟩
      · have h2 : F64.lt x x = true := F64.lt_of_lt_of_le (y := v) h h1
        rw [(F64.not_lt_iff hx hx).mpr (F64.le_refl hx)] at h2; cases h2
      · rw [clamp_varGe, if_neg hself]
    · rw [if_neg h]
      have hle : v ≤ x := dbl_not_lt hx (finite_ne_nan hv) h
      exact ⟨x, rfl, hle, fun _ => rfl, fun h1 => absurd hle h1, by rw [clamp_varGe, if_neg h]⟩
  · rw [clamp_varLe]
    simp only [(C03_double_finite i v _ hv).2]
    by_cases h : v < x
    · rw [if_pos h]
      refine ⟨v, rfl, F64.le_refl (finite_ne_nan hv), fun h1 => ?_, fun _ => rfl, ?_⟩
      · have h2 : F64.lt v v = true := F64.lt_of_lt_of_le (y := x) h h1
        rw [(F64.not_lt_iff (finite_ne_nan hv) (finite_ne_nan hv)).mpr (F64.le_refl (finite_ne_nan hv))] at h2
        cases h2
      · rw [clamp_varLe, if_neg hself]
    · rw [if_neg h]
      have hle : x ≤ v := dbl_not_lt (finite_ne_nan hv) hx h
      exact ⟨x, rfl, hle, fun _ => rfl, fun h1 => absurd hle h1, by rw [clamp_varLe, if_neg h]⟩

/-- The exact-arithmetic claim of C01 is **false** in binary64 for general slopes: `ClampX` of `49 x - 1 >= 0` at `0`
returns a value that `IsFeasible` rejects. -/
theorem C01_double_infeasible : ∃ (c : Ineq (Dbl L)) (x y : Dbl L), Dbl.Finite c.a ∧ Dbl.Finite c.b ∧ Dbl.Finite x ∧
    c.clampX x = .ok y ∧ ¬ c.isFeasible y := by
  refine ⟨⟨0, toDbl L (F64.round false 49), toDbl L (F64.round false (-1))⟩, toDbl L (F64.zero false),
    toDbl L (F64.div (F64.neg (F64.round false (-1))) (F64.round false 49)), ?_, ?_, ?_, ?_, ?_⟩
  · show F64.isFinite (F64.round false 49) = true; decide +kernel
  · show F64.isFinite (F64.round false (-1)) = true; decide +kernel
  · show F64.isFinite (F64.zero false) = true; decide +kernel
  · have h1 : ¬ Scalar.feq (toDbl L (F64.round false 49)) 0 := by
      show ¬ (F64.eq (F64.round false 49) (F64.zero false) = true); decide +kernel
    have h2 : ¬ (toDbl L (F64.round false 49)) < 0 := by
      show ¬ (F64.lt (F64.round false 49) (F64.zero false) = true); decide +kernel
    have h3 : toDbl L (F64.zero false) <
        toDbl L (F64.div (F64.neg (F64.round false (-1))) (F64.round false 49)) := by
      show F64.lt (F64.zero false) (F64.div (F64.neg (F64.round false (-1))) (F64.round false 49)) = true
      decide +kernel
    unfold Ineq.clampX
    simp only [if_neg h1, if_neg h2]
    exact congrArg Except.ok (if_pos h3)
  · show ¬ (F64.le (F64.zero false) (F64.add (F64.mul (F64.round false 49)
      (F64.div (F64.neg (F64.round false (-1))) (F64.round false 49))) (F64.round false (-1))) = true)
    decide +kernel

/-- **C04** in binary64. If every constraint is a `Var` bound with a finite value and the bounds are consistent, then
clamping any NaN-free start by each in turn succeeds and satisfies all of them exactly. -/
theorem C04_double_var {N M K : Nat} (p : QP N M K (Dbl L)) (x : Fin N → Dbl L) (v : Fin M → Dbl L)
    (hv : ∀ m, Dbl.Finite (v m)) (hx : ∀ j, x j ≠ F64.nan)
    (hp : ∀ m, (p.con m).toIneq = varGe (p.con m).var.val (v m) ∨ (p.con m).toIneq = varLe (p.con m).var.val (v m))
    (w : Fin N → Dbl L) (hw : ∀ m, (p.con m).toIneq.isFeasible (w (p.con m).var)) :
    ∃ x', IP.clampAll p (List.finRange M) x = .ok x' ∧ ∀ m, (p.con m).toIneq.isFeasible (x' (p.con m).var) := by
  have key : ∀ (l done : List (Fin M)) (u : Fin N → Dbl L), (∀ j, u j ≠ F64.nan) →
      (∀ m ∈ done, (p.con m).toIneq.isFeasible (u (p.con m).var)) →
      ∃ u', IP.clampAll p l u = .ok u' ∧ ∀ m ∈ done ++ l, (p.con m).toIneq.isFeasible (u' (p.con m).var) := by
    intro l
    induction l with
    | nil => intro done u _ h; exact ⟨u, rfl, by simpa using h⟩
    | cons i l ih =>
      intro done u hu h
      obtain ⟨y, hy, hyf, hyx, hyv, -⟩ := C01_double_var (p.con i).var.val (v i) (u (p.con i).var) (hv i)
        (hu _) (p.con i).toIneq (hp i)
      rw [IP.clampAll, hy]
      simp only
      suffices h12 : (∀ j, Function.update u (p.con i).var y j ≠ F64.nan) ∧ ∀ m ∈ done ++ [i],
          (p.con m).toIneq.isFeasible (Function.update u (p.con i).var y (p.con m).var) by
        obtain ⟨u', h1, h2⟩ := ih (done ++ [i]) (Function.update u (p.con i).var y) h12.1 h12.2
        exact ⟨u', h1, by simpa using h2⟩
      constructor
      · intro j
        by_cases hj : j = (p.con i).var
        · subst hj; rw [Function.update_self]
          by_cases hf : (p.con i).toIneq.isFeasible (u (p.con i).var)
          · rw [hyx hf]; exact hu _
          · rw [hyv hf]; exact finite_ne_nan (hv i)
        · rw [Function.update_of_ne hj]; exact hu j
      · intro m hm
        rcases List.mem_append.mp hm with hm | hm
        · by_cases hj : (p.con m).var = (p.con i).var
          · rw [hj, Function.update_self]
            by_cases hf : (p.con i).toIneq.isFeasible (u (p.con i).var)
            · rw [hyx hf, ← hj]; exact h m hm
            · rw [hyv hf]
              have hum := h m hm
              have hwm := hw m
              have hwi := hw i
              rw [hj] at hum hwm
              have um := C03_double_finite (p.con m).var.val (v m) (u (p.con i).var) (hv m)
              have wm := C03_double_finite (p.con m).var.val (v m) (w (p.con i).var) (hv m)
              have vm := C03_double_finite (p.con m).var.val (v m) (v i) (hv m)
              have ui := C03_double_finite (p.con i).var.val (v i) (u (p.con i).var) (hv i)
              have wi := C03_double_finite (p.con i).var.val (v i) (w (p.con i).var) (hv i)
              have hvi := finite_ne_nan (hv i)
              rcases hp m with em | em <;> rcases hp i with ei | ei <;> rw [em] at hum hwm ⊢ <;> rw [ei] at hf hwi
              · -- both lower
                rw [ui.1] at hf
                rw [um.1] at hum
                rw [vm.1]
                have : F64.lt (u (p.con i).var) (v i) = true := dbl_not_le hvi (hu _) hf
                exact F64.le_trans hum (F64.le_of_lt this)
              · rw [vm.1]; exact F64.le_trans (wm.1.mp hwm) (wi.2.mp hwi)
              · rw [vm.2]; exact F64.le_trans (wi.1.mp hwi) (wm.2.mp hwm)
              · rw [ui.2] at hf
                rw [um.2] at hum
                rw [vm.2]
                have : F64.lt (v i) (u (p.con i).var) = true := dbl_not_le (hu _) hvi hf
                exact F64.le_trans (F64.le_of_lt this) hum
          · rw [Function.update_of_ne hj]; exact h m hm
        · rw [List.mem_singleton] at hm; subst hm
          rw [Function.update_self]; exact hyf
  obtain ⟨x', h1, h2⟩ := key (List.finRange M) [] x hx (by simp)
  exact ⟨x', h1, fun m => h2 m (by simp)⟩

/-- Non-vacuity: the box `1/10 ≤ x ≤ 3/10`, neither of whose ends is exact in binary. -/
example : ∃ (p : QP 1 2 0 (Dbl L)) (v : Fin 2 → Dbl L) (w : Fin 1 → Dbl L), (∀ m, Dbl.Finite (v m)) ∧
    (∀ m, (p.con m).toIneq = varGe (p.con m).var.val (v m) ∨ (p.con m).toIneq = varLe (p.con m).var.val (v m)) ∧
    ∀ m, (p.con m).toIneq.isFeasible (w (p.con m).var) := by
  let lo : Dbl L := toDbl L (F64.round false (1 / 10))
  let hi : Dbl L := toDbl L (F64.round false (3 / 10))
  have hlo : Dbl.Finite lo := by show F64.isFinite (F64.round false (1 / 10)) = true; decide +kernel
  have hhi : Dbl.Finite hi := by show F64.isFinite (F64.round false (3 / 10)) = true; decide +kernel
  refine ⟨⟨fun _ _ => 1, fun _ => 0, Fin.elim0, Fin.elim0, ![⟨0, 1, -lo⟩, ⟨0, -1, hi⟩]⟩, ![lo, hi],
    fun _ => lo, ?_, ?_, ?_⟩
  · intro m
    match m with
    | 0 => exact hlo
    | 1 => exact hhi
  · intro m
    match m with
    | 0 => exact Or.inl rfl
    | 1 => exact Or.inr rfl
  · intro m
    match m with
    | 0 => exact (C03_double_finite 0 lo lo hlo).1.mpr (F64.le_refl (finite_ne_nan hlo))
    | 1 =>
      refine (C03_double_finite 0 hi lo hhi).2.mpr ?_
      show F64.le (F64.round false (1 / 10)) (F64.round false (3 / 10)) = true
      decide +kernel

end MiniOpt.Props
