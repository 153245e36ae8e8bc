import Verif.Lemmas.LDLTSolve
import Verif.Props.Totality

/-!
# C111: the factorisation, and the problems on which it fails (exact arithmetic)

`LDLT.eigen N K 0` is the algorithm of `Eigen::LDLT` (`Model/EigenLDLT.lean`) over the real numbers.

Concrete cases: `Props/EigenLDLTExamples.lean`.
-/

set_option autoImplicit false

namespace MiniOpt.Props

open MiniOpt MiniOpt.Spec MiniOpt.IP

variable {N M K : Nat}

/-- Every nonzero direction is seen by the Hessian or by an inequality constraint. The equality constraints do not count. -/
def Pinned (p : QP N M K ℝ) : Prop :=
  ∀ d : Fin N → ℝ, d ≠ 0 → (∀ m, (p.con m).a * d (p.con m).var = 0) → 0 < ∑ i, ∑ j, d i * Gsym p i j * d j

/-- Rows of `H_` in order. -/
abbrev rowsOf (N K : Nat) : List (Red N K) := (List.finRange N).map .inl ++ (List.finRange K).map .inr

theorem rows_nodup (N K : Nat) : (rowsOf N K).Nodup := by
  refine List.nodup_append.mpr ⟨(List.nodup_finRange N).map Sum.inl_injective, (List.nodup_finRange K).map Sum.inr_injective, ?_⟩
  intro a ha b hb
  obtain ⟨i, _, rfl⟩ := List.mem_map.mp ha
  obtain ⟨k, _, rfl⟩ := List.mem_map.mp hb
  simp

theorem mem_rows (r : Red N K) : r ∈ rowsOf N K := by
  rcases r with i | k <;> simp

theorem eigen_none (H : Red N K → Red N K → ℝ) :
    (LDLT.eigen N K (0 : ℝ)).ldltInverse H = none ↔ ¬ (LDLT.factorize H (rowsOf N K)).ok = true := by
  unfold LDLT.eigen
  dsimp only
  split_ifs with h <;> simp [h]

/-- **C111** (solutions). Whenever the factorisation reports success on a symmetric matrix, singular or not, multiplying the
returned matrix with the right-hand side of any solvable system yields a solution. -/
theorem C111_solves (H Hinv : Matrix (Red N K) (Red N K) ℝ) (hs : ∀ i j, H i j = H j i)
    (h : (LDLT.eigen N K (0 : ℝ)).ldltInverse H = some Hinv) (b w : Red N K → ℝ) (hw : H.mulVec w = b) :
    H.mulVec (Hinv.mulVec b) = b := by
  have hok : (LDLT.factorize H (rowsOf N K)).ok = true := by
    by_contra hn
    rw [(eigen_none H).mpr hn] at h
    cases h
  unfold LDLT.eigen at h
  dsimp only at h
  rw [if_pos hok] at h
  have h' := Option.some.inj h
  subst h'
  have hcol : Matrix.mulVec (fun i j => (LDLT.factorize H (rowsOf N K)).solve 0 (fun l => if l = j then 1 else 0) i) b
      = (LDLT.factorize H (rowsOf N K)).solve 0 b := funext fun i => LDLT.solve_columns _ b i
  rw [hcol]
  funext i
  exact LDLT.factorize_solves (H := H) hs (rows_nodup N K) mem_rows hok b (w := w) (fun i => congrFun hw i) i

/-- **C111** (contract). On a nonsingular symmetric matrix success means that the returned matrix is the inverse: the contract
the other theorems assume. -/
theorem C111_contract (N K : Nat) : LDLTContract (LDLT.eigen N K (0 : ℝ)) := by
  intro H Hinv hs hd h
  have hall : ∀ b : Red N K → ℝ, (H * Hinv).mulVec b = b := fun b => by
    rw [← Matrix.mulVec_mulVec]
    refine C111_solves H Hinv hs h b (H⁻¹.mulVec b) ?_
    rw [Matrix.mulVec_mulVec, Matrix.mul_nonsing_inv H hd, Matrix.one_mulVec]
  ext i j
  have := congrFun (hall (Pi.single j 1)) i
  rw [Matrix.mulVec_single_one] at this
  simpa [Matrix.one_apply, Pi.single_apply] using this

/-- The pivots: first the variables, then the equality constraints. -/
theorem order_split (H : Red N K → Red N K → ℝ) (h0 : ∀ k, H (.inr k) (.inr k) = 0) :
    ∃ P : List (Red N K), LDLT.order H (rowsOf N K) = P ++ (List.finRange K).map .inr ∧ P.Perm ((List.finRange N).map .inl) := by
  refine ⟨_, LDLT.pivotOrder_append (fun i => |H i i|) ((List.finRange K).map .inr) ((List.finRange N).map .inl) (rows_nodup N K) ?_ ?_, ?_⟩
  · intro a _ b hb
    obtain ⟨k, _, rfl⟩ := List.mem_map.mp hb
    rw [h0 k, abs_zero]; exact abs_nonneg _
  · intro b hb b' hb'
    obtain ⟨k, _, rfl⟩ := List.mem_map.mp hb
    rw [h0 k, abs_zero]; exact abs_nonneg _
  · exact LDLT.pivotOrder_perm _ _ _ rfl ((List.nodup_finRange N).map Sum.inl_injective)

/-- A positive semidefinite symmetric form vanishes only on its kernel. -/
theorem psd_form_kernel (B : Fin N → Fin N → ℝ) (hB : ∀ i j, B i j = B j i)
    (h : ∀ x : Fin N → ℝ, 0 ≤ ∑ i, ∑ j, x i * B i j * x j) (x : Fin N → ℝ) (hx : ∑ i, ∑ j, x i * B i j * x j = 0) :
    ∀ i, ∑ j, B i j * x j = 0 := by
  set q : QP N 0 0 ℝ := { G := B, c := fun _ => 0, A := fun k => k.elim0, b := fun k => k.elim0, con := fun k => k.elim0 } with hq
  have hG : ∀ i j, Gsym q i j = B i j := by
    intro i j
    show B (max i j) (min i j) = B i j
    rcases le_total i j with hij | hij
    · rw [max_eq_right hij, min_eq_left hij, hB]
    · rw [max_eq_left hij, min_eq_right hij]
  have := psd_kernel q (fun y => by simp only [hG]; exact h y) x (by simp only [hG]; exact hx)
  simpa only [hG] using this

/-- **C111** (success). On a nonsingular matrix `[B Aᵀ; A 0]` with positive semidefinite `B` the factorisation succeeds if and
only if `B` is positive definite. -/
theorem C111_success (H : Red N K → Red N K → ℝ) (hs : ∀ i j, H i j = H j i) (h0 : ∀ k l, H (.inr k) (.inr l) = 0)
    (hpsd : ∀ x : Fin N → ℝ, 0 ≤ ∑ i, ∑ j, x i * H (.inl i) (.inl j) * x j) (hd : IsUnit (Matrix.of H).det) :
    (∃ Hinv, (LDLT.eigen N K (0 : ℝ)).ldltInverse H = some Hinv) ↔
      ∀ x : Fin N → ℝ, x ≠ 0 → 0 < ∑ i, ∑ j, x i * H (.inl i) (.inl j) * x j := by
  have e1 : (∃ Hinv, (LDLT.eigen N K (0 : ℝ)).ldltInverse H = some Hinv) ↔ (LDLT.factorize H (rowsOf N K)).ok = true := by
    rw [← Option.isSome_iff_exists, ← not_iff_not, Bool.not_eq_true, Option.isSome_eq_false_iff, Option.isNone_iff_eq_none,
      eigen_none]
  rw [e1, LDLT.factorize_iff hs hd (rows_nodup N K) mem_rows]
  obtain ⟨P, hP, hperm⟩ := order_split H fun k => h0 k k
  have memP : ∀ r, r ∈ P ↔ ∃ i, r = .inl i := fun r => by
    rw [hperm.mem_iff]; simp [eq_comm]
  constructor
  · intro hl x hx
    refine lt_of_le_of_ne (hpsd x) fun h => hx ?_
    have hk := psd_form_kernel (fun i j => H (.inl i) (.inl j)) (fun i j => hs _ _) hpsd x h.symm
    have := hl P _ hP (Sum.elim x 0) ?_ ?_
    · funext i; exact congrFun this (.inl i)
    · intro r hr
      rcases r with i | k
      · exact absurd ((memP _).mpr ⟨i, rfl⟩) hr
      · rfl
    · intro r hr
      obtain ⟨i, rfl⟩ := (memP _).mp hr
      rw [Fintype.sum_sum_type]
      simpa using hk i
  · intro hpd a b hab v hsupp hv
    have hno : (LDLT.order H (rowsOf N K)).Nodup := (LDLT.order_perm H (rows_nodup N K)).nodup_iff.mpr (rows_nodup N K)
    -- the equality part contributes nothing
    have hrow : ∀ k, (∑ j, H (.inr k) (.inl j) * v (.inl j)) * v (.inr k) = 0 := by
      intro k
      by_cases hk : (.inr k : Red N K) ∈ a
      · have := hv _ hk
        rw [Fintype.sum_sum_type] at this
        simp only [h0, zero_mul, Finset.sum_const_zero, add_zero] at this
        rw [this, zero_mul]
      · rw [hsupp _ hk, mul_zero]
    have hprim : ∀ i, ((∑ j, H (.inl i) (.inl j) * v (.inl j)) + ∑ k, H (.inl i) (.inr k) * v (.inr k)) * v (.inl i) = 0 := by
      intro i
      by_cases hi : (.inl i : Red N K) ∈ a
      · have := hv _ hi
        rw [Fintype.sum_sum_type] at this
        rw [this, zero_mul]
      · rw [hsupp _ hi, mul_zero]
    have hx : (fun i => v (.inl i)) = 0 := by
      by_contra hne
      have hpos := hpd _ hne
      have e2 : ∑ i, (∑ k, H (.inl i) (.inr k) * v (.inr k)) * v (.inl i) = 0 := by
        have : ∑ i, (∑ k, H (.inl i) (.inr k) * v (.inr k)) * v (.inl i)
            = ∑ k, (∑ j, H (.inr k) (.inl j) * v (.inl j)) * v (.inr k) := by
          simp_rw [Finset.sum_mul]
          rw [Finset.sum_comm]
          exact Finset.sum_congr rfl fun k _ => Finset.sum_congr rfl fun i _ => by rw [hs (.inl i) (.inr k)]; ring
        rw [this]
        exact Finset.sum_eq_zero fun k _ => hrow k
      have e3 : ∑ i, (∑ j, H (.inl i) (.inl j) * v (.inl j)) * v (.inl i) = 0 := by
        have := Finset.sum_eq_zero fun (i : Fin N) (_ : i ∈ Finset.univ) => hprim i
        simp_rw [add_mul, Finset.sum_add_distrib] at this
        rw [e2, add_zero] at this
        exact this
      have e4 : ∑ i, ∑ j, v (.inl i) * H (.inl i) (.inl j) * v (.inl j) = ∑ i, (∑ j, H (.inl i) (.inl j) * v (.inl j)) * v (.inl i) := by
        simp_rw [Finset.sum_mul]
        exact Finset.sum_congr rfl fun i _ => Finset.sum_congr rfl fun j _ => by ring
      rw [e4, e3] at hpos
      exact lt_irrefl _ hpos
    have hx' : ∀ i, v (.inl i) = 0 := fun i => congrFun hx i
    by_cases hdual : ∃ k, (.inr k : Red N K) ∈ a
    · obtain ⟨k, hk⟩ := hdual
      -- all variables precede `k`
      have hall : ∀ i, (.inl i : Red N K) ∈ a := by
        intro i
        rw [hP] at hab hno
        by_contra hia
        rcases List.append_eq_append_iff.mp hab with ⟨c, hc, _⟩ | ⟨c, hc, _⟩
        · exact hia (by rw [hc]; exact List.mem_append_left _ ((memP _).mpr ⟨i, rfl⟩))
        · have : (.inr k : Red N K) ∈ P := by rw [hc]; exact List.mem_append_left _ hk
          obtain ⟨i', hi'⟩ := (memP _).mp this
          cases hi'
      have hker : ∀ r, ∑ c, H r c * v c = 0 := by
        intro r
        rcases r with i | l
        · exact hv _ (hall i)
        · rw [Fintype.sum_sum_type]
          simp [hx', h0]
      by_contra hne
      exact (isUnit_iff_ne_zero.mp hd) (Matrix.exists_mulVec_eq_zero_iff.mp ⟨v, hne, funext hker⟩)
    · push Not at hdual
      funext r
      rcases r with i | k
      · exact hx' i
      · exact hsupp _ (hdual k)

theorem Pinned.regular {p : QP N M K ℝ} (h : Pinned p) (hP : PSDG p) (hA : IndependentRows p) : Regular p :=
  ⟨hA, fun d _ => hP d, fun d hd _ hc => h d hd hc⟩

/-- The matrix of an iteration is factorised if and only if the problem is pinned. -/
theorem reduced_factorised {p : QP N M K ℝ} (hP : PSDG p) (hR : Regular p) {st : IPState N M K ℝ} (hwf : WF st)
    (hs : ∀ m, 0 < st.v.s m) (hz : ∀ m, 0 < st.v.z m) :
    (∃ Hinv, (LDLT.eigen N K (0 : ℝ)).ldltInverse (symRed (fillH p true st)) = some Hinv) ↔ Pinned p := by
  rw [symRed_fillH p st hwf]
  have hnn : ∀ x : Fin N → ℝ, ∀ m ∈ Finset.univ, 0 ≤ st.v.z m / st.v.s m * ((p.con m).a * x (p.con m).var) ^ 2 := fun x m _ =>
    mul_nonneg (div_nonneg (hz m).le (hs m).le) (sq_nonneg _)
  rw [C111_success (reducedMatrix p st.v) (reducedMatrix_symm p st.v) (fun _ _ => rfl)
    (fun x => by rw [reduced_quad]; exact add_nonneg (hP x) (Finset.sum_nonneg (hnn x)))
    (reducedMatrix_nonsing p st.v hR hs hz)]
  constructor
  · intro h d hd hc
    have := h d hd
    rw [reduced_quad] at this
    have h0 : ∑ m, st.v.z m / st.v.s m * ((p.con m).a * d (p.con m).var) ^ 2 = 0 :=
      Finset.sum_eq_zero fun m _ => by rw [hc m]; simp
    linarith
  · intro h x hx
    rw [reduced_quad]
    by_cases hc : ∀ m, (p.con m).a * x (p.con m).var = 0
    · have := h x hx hc
      have := Finset.sum_nonneg (hnn x)
      linarith
    · push Not at hc
      obtain ⟨m, hm⟩ := hc
      have h1 := hP x
      have h2 := Finset.single_le_sum (hnn x) (Finset.mem_univ m)
      have h3 : 0 < st.v.z m / st.v.s m * ((p.con m).a * x (p.con m).var) ^ 2 :=
        mul_pos (div_pos (hz m) (hs m)) (by positivity)
      linarith

/-- What remains after the initial guess, when the matrix of an iteration is factorised if and only if `P`. -/
theorem loop_iff {E : Eigen N K ℝ} {p : QP N M K ℝ} {P : Prop} (hfact : ∀ st : IPState N M K ℝ, WF st → (∀ m, 0 < st.v.s m) →
      (∀ m, 0 < st.v.z m) → ((∃ Hinv, E.ldltInverse (symRed (fillH p true st)) = some Hinv) ↔ P))
    (prm : QPParams ℝ) (n : Nat) (st0 : IPState N M K ℝ) (mu : ℝ)
    (hwf : WF st0) (hs : ∀ m, 0 < st0.v.s m) (hz : ∀ m, 0 < st0.v.z m) :
    (P → ∃ r, solveLoop E p prm (n + 1) st0 mu [] = .ok r) ∧
    (¬ P → ∃ st', solveLoop E p prm (n + 1) st0 mu [] = .error (.failedFactorization, st')) := by
  replace hfact : ∀ st : IPState N M K ℝ, WF st → (∀ m, 0 < st.v.s m) → (∀ m, 0 < st.v.z m) →
      ((∃ Hinv, E.ldltInverse (symRed (fillH p true (evaluateKKT p true st))) = some Hinv) ↔ P) :=
    fun st hwf hs hz => hfact _ (WF_evaluateKKT hwf) (by rw [evaluateKKT_v]; exact hs) (by rw [evaluateKKT_v]; exact hz)
  refine ⟨fun hpin => ?_, fun hpin => ?_⟩
  · have := solveLoop_rule E p prm (fun _ st _ _ => WF st ∧ (∀ m, 0 < st.v.s m) ∧ ∀ m, 0 < st.v.z m)
      (fun _ => True) (fun _ => False)
      (by
        rintro n st mu log st2 it hI ⟨⟨st1, h1, rfl⟩, _, _⟩ _
        refine ⟨WF_evaluateKKT (WF_iterate hI.1 h1), ?_⟩
        rw [evaluateKKT_v]
        exact iterate_pos h1 hI.2.2)
      (fun _ _ _ _ _ _ _ _ _ => trivial) (fun _ _ _ _ => trivial)
      (by
        intro n st mu log e hI he
        rcases iterate_error he with ⟨_, hn⟩ | ⟨m, hm⟩
        · obtain ⟨Hinv, hH⟩ := (hfact st hI.1 hI.2.1 hI.2.2).mpr hpin
          rw [hn] at hH; cases hH
        · exact hm (hI.2.1 m))
      (n + 1) st0 mu [] ⟨hwf, hs, hz⟩
    cases hr : solveLoop E p prm (n + 1) st0 mu [] with
    | error e => rw [hr] at this; exact this.elim
    | ok r => exact ⟨r, rfl⟩
  · rcases solveLoop_succ E p prm n st0 mu [] with ⟨e, he, hr⟩ | ⟨st2, it, ⟨⟨st1, h1, _⟩, _, _⟩, _⟩
    · rcases iterate_error he with ⟨h1, _⟩ | ⟨m, hm⟩
      · obtain ⟨e1, e2⟩ := e
        dsimp only at h1
        subst h1
        exact ⟨e2, hr⟩
      · exact absurd (hs m) hm
    · exfalso
      obtain ⟨st', hc, _⟩ := iterate_ok h1
      exact hpin ((hfact st0 hwf hs hz).mp ⟨_, (computeLDLT_ok hc).2.1⟩)

theorem valid_iterations {prm : QPParams ℝ} (hprm : checkParams prm = .ok ()) : ∃ n, prm.maxIterations.toNat = n + 1 := by
  have h : 0 < prm.maxIterations := by
    unfold checkParams at hprm
    split_ifs at hprm with h1 h2 h3 h4 h5
    exact h5
  exact ⟨prm.maxIterations.toNat - 1, by omega⟩

/-- `Solve` with the naive or a user guess, when the matrix of an iteration is factorised if and only if `P`. -/
theorem solve_iff {E : Eigen N K ℝ} {p : QP N M K ℝ} {P : Prop} (hfact : ∀ st : IPState N M K ℝ, WF st → (∀ m, 0 < st.v.s m) →
      (∀ m, 0 < st.v.z m) → ((∃ Hinv, E.ldltInverse (symRed (fillH p true st)) = some Hinv) ↔ P))
    (ha : ∀ m, (p.con m).a ≠ 0) (prm : QPParams ℝ)
    (hprm : checkParams prm = .ok ()) (st : IPState N M K ℝ) (hwf : WF st)
    (hg : prm.initialGuessMethod = .naive ∨
      (prm.initialGuessMethod = .userProvided ∧ (∀ m, 0 < st.v.s m) ∧ ∀ m, 0 < st.v.z m)) :
    ((∃ r, IP.solve E p prm st = .ok r) ↔ P) ∧
    (¬ P → ∃ st', IP.solve E p prm st = .error (.failedFactorization, st')) := by
  obtain ⟨n, hn⟩ := valid_iterations hprm
  have hguess : ∃ st0, initialGuess E p prm.initialGuessMethod st = .ok st0 ∧ WF st0 ∧
      (∀ m, 0 < st0.v.s m) ∧ ∀ m, 0 < st0.v.z m := by
    rcases hg with hg | ⟨hg, hs, hz⟩
    · cases h0 : initialGuess E p prm.initialGuessMethod st with
      | error e =>
        exfalso
        rw [hg] at h0
        rcases finishGuess_error h0 with ⟨_, m, hm⟩
        exact ha m hm
      | ok st0 =>
        exact ⟨st0, rfl, WF_initialGuess hwf h0, initialGuess_pos (by rw [hg]; simp) h0⟩
    · exact ⟨st, by rw [hg]; rfl, hwf, hs, hz⟩
  obtain ⟨st0, h0, hwf0, hs0, hz0⟩ := hguess
  have hsolve : IP.solve E p prm st = solveLoop E p prm (n + 1) (evaluateKKT p true st0)
      (initialMu prm (evaluateKKT p true st0)) [] := by
    unfold IP.solve
    rw [hprm, ← hn]
    dsimp only
    rw [h0]
  have key := loop_iff hfact prm n (evaluateKKT p true st0) (initialMu prm (evaluateKKT p true st0)) (WF_evaluateKKT hwf0)
    (by rw [evaluateKKT_v]; exact hs0) (by rw [evaluateKKT_v]; exact hz0)
  rw [hsolve]
  by_cases hpin : P
  · replace key := key.1 hpin
    exact ⟨⟨fun _ => hpin, fun _ => key⟩, fun h => absurd hpin h⟩
  · replace key := key.2 hpin
    obtain ⟨st', he⟩ := key
    refine ⟨⟨fun ⟨r, hr⟩ => ?_, fun h => absurd h hpin⟩, fun _ => ⟨st', he⟩⟩
    rw [he] at hr; cases hr

/-- **C111** (the solver). Take a QP with positive semidefinite `G` and independent equality rows whose reduced system is
nonsingular (`Regular`), nonzero constraint slopes, valid parameters, a prepared solver, and the naive initial guess or a user
guess with positive slacks and multipliers. `Solve` returns if and only if every direction is seen by the Hessian or by an
inequality constraint; otherwise the first iteration throws `FailedFactorization`, although the system to be solved has exactly
one solution. -/
theorem C111_solve (p : QP N M K ℝ) (hP : PSDG p) (hR : Regular p) (ha : ∀ m, (p.con m).a ≠ 0) (prm : QPParams ℝ)
    (hprm : checkParams prm = .ok ()) (st : IPState N M K ℝ) (hwf : WF st)
    (hg : prm.initialGuessMethod = .naive ∨
      (prm.initialGuessMethod = .userProvided ∧ (∀ m, 0 < st.v.s m) ∧ ∀ m, 0 < st.v.z m)) :
    ((∃ r, IP.solve (LDLT.eigen N K 0) p prm st = .ok r) ↔ Pinned p) ∧
    (¬ Pinned p → ∃ st', IP.solve (LDLT.eigen N K 0) p prm st = .error (.failedFactorization, st')) :=
  solve_iff (fun _ hwf hs hz => reduced_factorised hP hR hwf hs hz) ha prm hprm st hwf hg

/-- **C111** (the other initial guess). With `SOLVE_EQUALITY_CONSTRAINED` the guess itself factorises the matrix without the
inequality constraints. For a QP with positive semidefinite `G`, independent equality rows and a unique minimiser of the
equality constrained problem (`PosDefOnNull`), `Solve` returns if and only if `G` is positive definite. -/
theorem C111_equality_guess (p : QP N M K ℝ) (hP : PSDG p) (hA : IndependentRows p) (hN : PosDefOnNull p)
    (ha : ∀ m, (p.con m).a ≠ 0) (prm : QPParams ℝ) (hprm : checkParams prm = .ok ()) (st : IPState N M K ℝ) (hwf : WF st)
    (hg : prm.initialGuessMethod = .solveEqualityConstrained) :
    ((∃ r, IP.solve (LDLT.eigen N K 0) p prm st = .ok r) ↔ PosDefG p) ∧
    (¬ PosDefG p → ∃ st', IP.solve (LDLT.eigen N K 0) p prm st = .error (.failedFactorization, st')) := by
  obtain ⟨n, hn⟩ := valid_iterations hprm
  set stz : IPState N M K ℝ := { st with v := { st.v with x := fun _ => 0, y := fun _ => 0 } } with hstz
  have hwfz : WF stz := hwf
  have hfact : (∃ Hinv, (LDLT.eigen N K (0 : ℝ)).ldltInverse (symRed (fillH p false stz)) = some Hinv) ↔ PosDefG p := by
    rw [symRed_fillH_false p stz hwfz]
    exact C111_success (kktMatrix p) (kktMatrix_symm p) (fun _ _ => rfl) hP (kktMatrix_nonsing p hN hA)
  have hrun : PosDefG p → ∃ r, IP.solve (LDLT.eigen N K 0) p prm st = .ok r := by
    intro hpd
    have hpin : Pinned p := fun d hd _ => hpd d hd
    cases h0 : initialGuess (LDLT.eigen N K 0) p prm.initialGuessMethod st with
    | error e =>
      exfalso
      rw [hg] at h0
      unfold initialGuess at h0
      dsimp only at h0
      split at h0
      · rename_i e' he
        rcases computeLDLT_error he with ⟨_, h⟩ | ⟨h, _⟩
        · obtain ⟨Hinv, hH⟩ := hfact.mpr hpd
          rw [hstz, h] at hH; cases hH
        · cases h
      · rcases finishGuess_error h0 with ⟨_, m, hm⟩
        exact ha m hm
    | ok st0 =>
      obtain ⟨hs0, hz0⟩ := initialGuess_pos (by rw [hg]; simp) h0
      have key := loop_iff (fun _ hwf hs hz => reduced_factorised hP (hpd.regular hA) hwf hs hz) prm n (evaluateKKT p true st0) (initialMu prm (evaluateKKT p true st0))
        (WF_evaluateKKT (WF_initialGuess hwf h0)) (by rw [evaluateKKT_v]; exact hs0) (by rw [evaluateKKT_v]; exact hz0)
      replace key := key.1 hpin
      obtain ⟨r, hr⟩ := key
      refine ⟨r, ?_⟩
      unfold IP.solve
      rw [hprm]
      dsimp only
      rw [h0, hn]
      exact hr
  have hthrow : ¬ PosDefG p → ∃ st', IP.solve (LDLT.eigen N K 0) p prm st = .error (.failedFactorization, st') := by
    intro hpd
    cases hc : computeLDLT (LDLT.eigen N K 0) p false stz with
    | ok st1 => exact absurd (hfact.mp ⟨_, (computeLDLT_ok hc).2.1⟩) hpd
    | error e =>
      rcases computeLDLT_error hc with ⟨h, _⟩ | ⟨h, _⟩
      · obtain ⟨e1, e2⟩ := e
        dsimp only at h
        subst h
        refine ⟨e2, ?_⟩
        unfold IP.solve
        rw [hprm, hg]
        unfold initialGuess
        dsimp only
        rw [← hstz, hc]
      · cases h
  refine ⟨⟨fun ⟨r, hr⟩ => ?_, hrun⟩, hthrow⟩
  by_contra hpd
  obtain ⟨st', he⟩ := hthrow hpd
  rw [he] at hr; cases hr

end MiniOpt.Props
