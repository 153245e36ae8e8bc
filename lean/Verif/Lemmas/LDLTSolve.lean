import Verif.Lemmas.LDLT

/-!
# When the factorisation succeeds, and what `solve` returns then
-/

set_option autoImplicit false

namespace MiniOpt.LDLT

open MiniOpt

variable {ι : Type} [DecidableEq ι] [Fintype ι]

theorem sum_list_univ {a : List ι} (hn : a.Nodup) {g : ι → ℝ} (hg : ∀ i, i ∉ a → g i = 0) : (a.map g).sum = ∑ i, g i := by
  rw [← List.sum_toFinset g hn]
  refine Finset.sum_subset (Finset.subset_univ _) fun i _ hi => hg i (by simpa using hi)

/-- No nonzero vector supported on `a` is sent to zero by the principal submatrix with rows and columns `a`. -/
def NonsingularOn (H : ι → ι → ℝ) (a : List ι) : Prop :=
  ∀ v : ι → ℝ, (∀ i, i ∉ a → v i = 0) → (∀ i ∈ a, ∑ j, H i j * v j = 0) → v = 0

theorem nonsingularOn_univ {H : ι → ι → ℝ} (hd : IsUnit (Matrix.of H).det) {a : List ι} (ha : ∀ i, i ∈ a) : NonsingularOn H a := by
  intro v _ h
  by_contra hv
  refine (isUnit_iff_ne_zero.mp hd) (Matrix.exists_mulVec_eq_zero_iff.mp ⟨v, hv, ?_⟩)
  funext i
  exact h i (ha i)

omit [Fintype ι] in
theorem strictlyLowerZero_iff (H : ι → ι → ℝ) : ∀ l : List ι, strictlyLowerZero H l = true ↔ l.Pairwise fun k i => H i k = 0
  | [] => by simp [strictlyLowerZero]
  | k :: rs => by
    rw [strictlyLowerZero, Bool.and_eq_true, strictlyLowerZero_iff H rs, List.pairwise_cons, List.all_eq_true]
    simp only [decide_eq_true_eq, real_feq]

/-- The order in which `factorize` takes the pivots. -/
noncomputable def order (H : ι → ι → ℝ) (rows : List ι) : List ι := pivotOrder (fun i => |H i i|) rows.length rows

omit [Fintype ι] in
theorem order_perm (H : ι → ι → ℝ) {rows : List ι} (hn : rows.Nodup) : (order H rows).Perm rows :=
  pivotOrder_perm _ _ rows rfl hn

omit [Fintype ι] in
theorem factorize_cases (H : ι → ι → ℝ) (rows : List ι) :
    (order H rows = [] ∧ factorize H rows = ⟨[], fun _ _ => 0, fun _ => 0, false, true⟩) ∨
    (∃ k rs, order H rows = k :: rs ∧ H k k ≠ 0 ∧
      factorize H rows = Fact.steps H (k :: rs) ⟨[], fun _ _ => 0, fun _ => 0, false, true⟩) ∨
    ∃ k rs, order H rows = k :: rs ∧ H k k = 0 ∧
      factorize H rows = ⟨k :: rs, fun _ _ => 0, fun i => H i i, true, strictlyLowerZero H (k :: rs)⟩ := by
  have ho : pivotOrder (fun i => Scalar.abs (H i i)) rows.length rows = order H rows := rfl
  unfold factorize
  dsimp only
  rw [ho]
  cases h : order H rows with
  | nil => exact Or.inl ⟨rfl, rfl⟩
  | cons k rs =>
    right
    dsimp only
    by_cases hp : (0 : ℝ) < Scalar.abs (H k k)
    · left
      refine ⟨k, rs, rfl, ?_, if_pos hp⟩
      intro h0
      have : Scalar.abs (H k k) = |H k k| := rfl
      rw [this, h0, abs_zero] at hp
      exact lt_irrefl _ hp
    · right
      refine ⟨k, rs, rfl, ?_, if_neg hp⟩
      exact abs_eq_zero.mp (le_antisymm (not_lt.mp hp) (abs_nonneg _))

omit [Fintype ι] in
theorem factorize_done (H : ι → ι → ℝ) (rows : List ι) : (factorize H rows).done = order H rows := by
  rcases factorize_cases H rows with ⟨h1, h2⟩ | ⟨k, rs, h1, _, h2⟩ | ⟨k, rs, h1, _, h2⟩
  · rw [h2, h1]
  · rw [h2, h1, steps_done]; rfl
  · rw [h2, h1]

omit [Fintype ι] in
/-- A factorisation that reports success is one. -/
theorem factorize_spec {H : ι → ι → ℝ} (hs : ∀ i j, H i j = H j i) {rows : List ι} (hn : rows.Nodup)
    (hok : (factorize H rows).ok = true) :
    UnitLower (factorize H rows).L (factorize H rows).done ∧
    ∀ i ∈ (factorize H rows).done, ∀ i' ∈ (factorize H rows).done, H i i' = ldl (factorize H rows) i i' := by
  have hno : (order H rows).Nodup := (order_perm H hn).nodup_iff.mpr hn
  rcases factorize_cases H rows with ⟨h1, h2⟩ | ⟨k, rs, h1, _, h2⟩ | ⟨k, rs, h1, hk, h2⟩
  · rw [h2]
    exact ⟨⟨List.nodup_nil, fun _ => rfl, List.Pairwise.nil⟩, fun i hi => by simp at hi⟩
  · rw [h2] at hok ⊢
    rw [h1] at hno
    have hi := steps_inv hs (start_inv H hno) hok
    exact ⟨hi.lower, hi.square⟩
  · rw [h2] at hok ⊢
    rw [h1] at hno
    refine ⟨⟨hno, fun _ => rfl, List.Pairwise.imp (fun _ => rfl) hno⟩, ?_⟩
    have hlow := (strictlyLowerZero_iff H (k :: rs)).mp hok
    have hsorted := pivotOrder_sorted (fun i => |H i i|) rows.length rows rfl hn
    change (order H rows).Pairwise _ at hsorted
    rw [h1] at hsorted
    have hdiag : ∀ i ∈ k :: rs, H i i = 0 := by
      intro i hi
      rcases List.mem_cons.mp hi with rfl | hi
      · exact hk
      · have := (List.pairwise_cons.mp hsorted).1 i hi
        rw [hk, abs_zero] at this
        exact abs_eq_zero.mp (le_antisymm this (abs_nonneg _))
    have hz : ∀ i ∈ k :: rs, ∀ i' ∈ k :: rs, H i i' = 0 := by
      intro i hi i' hi'
      by_cases he : i = i'
      · subst he; exact hdiag i hi
      · have hsym : Std.Symm fun k i => H i k = 0 := ⟨fun _ _ h => by rw [hs]; exact h⟩
        exact List.Pairwise.forall_of_forall (R := fun k i => H i k = 0) hdiag hlow hi' hi
    intro i hi i' hi'
    rw [hz i hi i' hi']
    symm
    refine List.sum_eq_zero fun v hv => ?_
    obtain ⟨j, hj, rfl⟩ := List.mem_map.mp hv
    show unit _ i j * (H j j * unit _ i' j) = 0
    rw [hdiag j hj, zero_mul, mul_zero]

omit [Fintype ι] in
/-- A unit lower triangular system with right side zero has only the zero solution. -/
theorem lower_zero {L : ι → ι → ℝ} {l : List ι} (hl : UnitLower L l) {u : ι → ℝ}
    (hu : ∀ i ∈ l, (l.map fun j => unit L i j * u j).sum = 0) : ∀ i ∈ l, u i = 0 := by
  have : ∀ c d, l = c ++ d → ∀ i ∈ c, u i = 0 := by
    intro c
    induction c using List.reverseRecOn with
    | nil => intro d _ i hi; simp at hi
    | append_singleton c k ih =>
      intro d hcd i hi
      have hc := ih (k :: d) (by rw [hcd]; simp)
      rcases List.mem_append.mp hi with hi | hi
      · exact hc i hi
      · rw [List.mem_singleton.mp hi]
        have hcd' : l = c ++ k :: d := by rw [hcd]; simp
        have hk : k ∈ l := by rw [hcd']; simp
        have := hu k hk
        rw [sum_unit_row hl.nodup hk] at this
        have hz : (l.map fun j => L k j * u j).sum = 0 := by
          rw [hcd', List.map_append, List.sum_append, List.map_cons, List.sum_cons, hl.diag k]
          have h1 : (c.map fun j => L k j * u j).sum = 0 := List.sum_eq_zero fun x hx => by
            obtain ⟨j, hj, rfl⟩ := List.mem_map.mp hx
            rw [hc j hj, mul_zero]
          have hup := hl.upper
          rw [hcd'] at hup
          have h2 : (d.map fun j => L k j * u j).sum = 0 :=
            sum_zero_part (L := fun j => L k j) (List.pairwise_cons.mp (List.pairwise_append.mp hup).2.1).1
          rw [h1, h2]; ring
        linarith
  exact this l [] (by simp)

/-- Solving with a successful factorisation: whenever the system has a solution, one is returned. -/
theorem solve_spec {H : ι → ι → ℝ} {f : Fact ι ℝ} (hL : UnitLower f.L f.done) (hall : ∀ i, i ∈ f.done)
    (hsq : ∀ i ∈ f.done, ∀ i' ∈ f.done, H i i' = ldl f i i') (b : ι → ℝ) {w : ι → ℝ} (hw : ∀ i, ∑ j, H i j * w j = b i) (i : ι) :
    ∑ j, H i j * f.solve 0 b j = b i := by
  have hlist : ∀ (g : ι → ℝ) (i : ι), ∑ j, H i j * g j
      = (f.done.map fun j => unit f.L i j * (f.D j * (f.done.map fun i' => unit f.L i' j * g i').sum)).sum := by
    intro g i
    rw [← sum_list_univ hL.nodup fun j hj => absurd (hall j) hj]
    have e1 : (f.done.map fun j => H i j * g j) = f.done.map fun j => ldl f i j * g j :=
      List.map_congr_left fun j hj => by rw [hsq i (hall i) j hj]
    rw [e1, ldl_mul]
  set y := substitute f.L b [] f.done (fun _ => 0) with hy
  -- `y = D Uᵀ w`
  have hyw : ∀ k ∈ f.done, y k - f.D k * (f.done.map fun i' => unit f.L i' k * w i').sum = 0 := by
    refine lower_zero hL (u := fun k => y k - f.D k * (f.done.map fun i' => unit f.L i' k * w i').sum) fun i hi => ?_
    have h1 := forward_solves hL b (fun _ => 0) i hi
    have h2 := (hlist w i).symm.trans (hw i)
    have e : (fun j => unit f.L i j * (y j - f.D j * (f.done.map fun i' => unit f.L i' j * w i').sum))
        = fun j => unit f.L i j * y j + -(unit f.L i j * (f.D j * (f.done.map fun i' => unit f.L i' j * w i').sum)) := by
      funext j; ring
    have hneg : (f.done.map fun j => -(unit f.L i j * (f.D j * (f.done.map fun i' => unit f.L i' j * w i').sum))).sum
        = -(f.done.map fun j => unit f.L i j * (f.D j * (f.done.map fun i' => unit f.L i' j * w i').sum)).sum := by
      have : ∀ (l : List ι) (g : ι → ℝ), (l.map fun j => -g j).sum = -(l.map g).sum := by
        intro l g
        induction l with
        | nil => simp
        | cons a l ih => rw [List.map_cons, List.sum_cons, List.map_cons, List.sum_cons, ih]; ring
      exact this _ _
    rw [e, List.sum_map_add, h1, hneg, h2]; ring
  rw [hlist]
  have hb : ∀ k ∈ f.done, f.D k * (f.done.map fun j => unit f.L j k * f.solve 0 b j).sum = y k := by
    intro k hk
    have h := backward_solves hL (fun i => if (0 : ℝ) < Scalar.abs (f.D i) then y i / f.D i else 0) (fun _ => 0) k hk
    have h' : (f.done.map fun j => unit f.L j k * f.solve 0 b j).sum
        = if (0 : ℝ) < Scalar.abs (f.D k) then y k / f.D k else 0 := h
    rw [h']
    by_cases h0 : f.D k = 0
    · have := hyw k hk
      rw [h0, zero_mul, sub_zero] at this
      rw [h0, zero_mul, this]
    · have hpos : (0 : ℝ) < Scalar.abs (f.D k) := abs_pos.mpr h0
      rw [if_pos hpos]
      field_simp
  have e2 : (f.done.map fun j => unit f.L i j * (f.D j * (f.done.map fun i' => unit f.L i' j * f.solve 0 b i').sum))
      = f.done.map fun j => unit f.L i j * y j :=
    List.map_congr_left fun j hj => by rw [hb j hj]
  rw [e2]
  exact forward_solves hL b (fun _ => 0) i (hall i)

/-- As long as the leading principal submatrices are nonsingular, every pivot is nonzero. -/
theorem steps_succeed {H : ι → ι → ℝ} (hs : ∀ i j, H i j = H j i) : ∀ (rest : List ι) (f : Fact ι ℝ), Inv H f rest →
    f.ok = true → f.zeroPivot = false →
    (∀ a b, rest = a ++ b → a ≠ [] → NonsingularOn H (f.done ++ a)) → (Fact.steps H rest f).ok = true
  | [], f, _, hok, _, _ => hok
  | k :: rs, f, hi, hok, hz, hpre => by
    have hi' := step_inv hs hi hok
    have hne : f.entry H k k ≠ 0 := by
      intro h0
      have hgD : (f.step H k rs).D k = 0 := by
        show Function.update f.D k (f.entry H k k) k = 0
        rw [Function.update_self, h0]
      obtain ⟨v, hv, hsupp, hv0⟩ := null_vector hi'.lower hi'.square
        (by show k ∈ f.done ++ [k]; simp) hgD
      refine hv (hpre [k] rs rfl (by simp) v hsupp fun i hid => ?_)
      rw [← sum_list_univ hi'.lower.nodup fun j hj => by rw [hsupp j hj, mul_zero]]
      exact hv0 i hid
    have hval : decide ((0 : ℝ) < Scalar.abs (f.entry H k k)) = true := decide_eq_true (abs_pos.mpr hne)
    refine steps_succeed hs rs (f.step H k rs) hi' ?_ ?_ ?_
    · show (f.ok && (decide ((0 : ℝ) < Scalar.abs (f.entry H k k)) || rs.all fun i => decide (Scalar.feq (f.entry H i k) 0))
        && !(f.zeroPivot && decide ((0 : ℝ) < Scalar.abs (f.entry H k k)))) = true
      rw [hok, hz, hval]; rfl
    · show (f.zeroPivot || !decide ((0 : ℝ) < Scalar.abs (f.entry H k k))) = false
      rw [hz, hval]; rfl
    · intro a b hab ha
      have := hpre (k :: a) b (by rw [hab]; rfl) (by simp)
      show NonsingularOn H ((f.done ++ [k]) ++ a)
      simpa using this

/-- The leading principal submatrices, in the order of the pivots. -/
def LeadingNonsingular (H : ι → ι → ℝ) (rows : List ι) : Prop := ∀ a b, order H rows = a ++ b → NonsingularOn H a

theorem factorize_succeeds {H : ι → ι → ℝ} (hs : ∀ i j, H i j = H j i) {rows : List ι} (hn : rows.Nodup)
    (hl : LeadingNonsingular H rows) : (factorize H rows).ok = true := by
  have hno : (order H rows).Nodup := (order_perm H hn).nodup_iff.mpr hn
  rcases factorize_cases H rows with ⟨h1, h2⟩ | ⟨k, rs, h1, _, h2⟩ | ⟨k, rs, h1, hk, h2⟩
  · rw [h2]
  · rw [h2]
    rw [h1] at hno
    exact steps_succeed hs _ _ (start_inv H hno) rfl rfl fun a b hab _ => hl a b (by rw [h1, hab])
  · exfalso
    have := hl [k] rs h1 (fun i => if i = k then 1 else 0) (fun i hi => by simp at hi; simp [hi]) (fun i hi => by
      rw [List.mem_singleton.mp hi]; simp [hk])
    have h1 := congrFun this k
    simp at h1

theorem unitLower_prefix {L : ι → ι → ℝ} {a b : List ι} (h : UnitLower L (a ++ b)) : UnitLower L a :=
  ⟨(List.nodup_append.mp h.nodup).1, h.diag, (List.pairwise_append.mp h.upper).1⟩

/-- The factors of a leading principal submatrix are the leading parts of the factors. -/
theorem leading_of_pivots {H : ι → ι → ℝ} {f : Fact ι ℝ} (hL : UnitLower f.L f.done)
    (hsq : ∀ i ∈ f.done, ∀ i' ∈ f.done, H i i' = ldl f i i') (hD : ∀ i ∈ f.done, f.D i ≠ 0) (a b : List ι)
    (hab : f.done = a ++ b) : NonsingularOn H a := by
  intro v hsupp hv
  rw [hab] at hL
  have hLa := unitLower_prefix hL
  have hzero : ∀ i ∈ a, ∀ j ∈ b, unit f.L i j = 0 := by
    intro i hi j hj
    unfold unit
    rw [(List.pairwise_append.mp hL.upper).2.2 i hi j hj, if_neg fun h => (List.nodup_append.mp hL.nodup).2.2 i hi j hj h, add_zero]
  set g : Fact ι ℝ := { f with done := a } with hg
  have hsqa : ∀ i ∈ a, ∀ i' ∈ a, H i i' = ldl g i i' := by
    intro i hi i' hi'
    rw [hsq i (by rw [hab]; simp [hi]) i' (by rw [hab]; simp [hi'])]
    unfold ldl
    rw [hab, List.map_append, List.sum_append]
    have : (b.map fun j => unit f.L i j * (f.D j * unit f.L i' j)).sum = 0 :=
      List.sum_eq_zero fun x hx => by
        obtain ⟨j, hj, rfl⟩ := List.mem_map.mp hx
        rw [hzero i hi j hj, zero_mul]
    rw [this, add_zero]
  -- `D Uᵀ v = w` with `U w = 0`
  set w : ι → ℝ := fun j => f.D j * (a.map fun i' => unit f.L i' j * v i').sum with hw
  have hUw : ∀ i ∈ a, (a.map fun j => unit f.L i j * w j).sum = 0 := by
    intro i hi
    have h1 := ldl_mul g i v
    have h2 : (g.done.map fun i' => ldl g i i' * v i') = a.map fun j => H i j * v j :=
      List.map_congr_left fun j hj => by rw [hsqa i hi j hj]
    rw [h2, sum_list_univ hLa.nodup fun j hj => by rw [hsupp j hj, mul_zero], hv i hi] at h1
    exact h1.symm
  have hw0 := lower_zero hLa hUw
  have hUtv : ∀ j ∈ a, (a.map fun i' => unit f.L i' j * v i').sum = 0 := by
    intro j hj
    rcases mul_eq_zero.mp (hw0 j hj) with h | h
    · exact absurd h (hD j (by rw [hab]; simp [hj]))
    · exact h
  -- `Uᵀ v = 0`: from the last entry back
  have upper_zero : ∀ d c, a = c ++ d → ∀ i ∈ d, v i = 0 := by
    intro d
    induction d with
    | nil => intro c _ i hi; simp at hi
    | cons k d ih =>
      intro c hcd i hi
      have hd := ih (c ++ [k]) (by rw [hcd]; simp)
      rcases List.mem_cons.mp hi with rfl | hi
      · have hk : i ∈ a := by rw [hcd]; simp
        have h := hUtv i hk
        have hU : (fun j => unit f.L j i * v j) = fun j => unit (fun i j => f.L j i) i j * v j := by
          funext j
          unfold unit
          congr 2
          by_cases h : j = i
          · subst h; simp
          · simp [h, Ne.symm h]
        rw [hU, sum_unit_row hLa.nodup hk] at h
        have hz : (a.map fun j => f.L j i * v j).sum = 0 := by
          rw [hcd, List.map_append, List.sum_append, List.map_cons, List.sum_cons, hL.diag i]
          have h1 : (d.map fun j => f.L j i * v j).sum = 0 := List.sum_eq_zero fun x hx => by
            obtain ⟨j, hj, rfl⟩ := List.mem_map.mp hx
            rw [hd j hj, mul_zero]
          have hup := hLa.upper
          rw [hcd] at hup
          have h2 : (c.map fun j => f.L j i * v j).sum = 0 :=
            sum_zero_part (L := fun j => f.L j i) fun j hj => (List.pairwise_append.mp hup).2.2 j hj i (by simp)
          rw [h1, h2]; ring
        linarith
      · exact hd i hi
  funext i
  by_cases hi : i ∈ a
  · exact upper_zero a [] rfl i hi
  · exact hsupp i hi

/-- For a nonsingular symmetric matrix: success means that all leading principal submatrices (in pivot order) are nonsingular,
and then the pivots are nonzero. -/
theorem factorize_iff {H : ι → ι → ℝ} (hs : ∀ i j, H i j = H j i) (hd : IsUnit (Matrix.of H).det) {rows : List ι} (hn : rows.Nodup)
    (hall : ∀ i, i ∈ rows) : (factorize H rows).ok = true ↔ LeadingNonsingular H rows := by
  refine ⟨fun hok => ?_, factorize_succeeds hs hn⟩
  obtain ⟨hL, hsq⟩ := factorize_spec hs hn hok
  have hmem : ∀ i, i ∈ (factorize H rows).done := fun i => by
    rw [factorize_done]; exact (order_perm H hn).mem_iff.mpr (hall i)
  intro a b hab
  refine leading_of_pivots hL hsq ?_ a b (by rw [factorize_done]; exact hab)
  intro i hi h0
  obtain ⟨v, hv, hsupp, hv0⟩ := null_vector hL hsq hi h0
  refine hv (nonsingularOn_univ hd hmem v hsupp fun l hl => ?_)
  rw [← sum_list_univ hL.nodup fun j hj => absurd (hmem j) hj]
  exact hv0 l hl

/-- A successful factorisation solves every system that has a solution. -/
theorem factorize_solves {H : ι → ι → ℝ} (hs : ∀ i j, H i j = H j i) {rows : List ι} (hn : rows.Nodup)
    (hall : ∀ i, i ∈ rows) (hok : (factorize H rows).ok = true) (b : ι → ℝ) {w : ι → ℝ} (hw : ∀ i, ∑ j, H i j * w j = b i) (i : ι) :
    ∑ j, H i j * (factorize H rows).solve 0 b j = b i := by
  obtain ⟨hL, hsq⟩ := factorize_spec hs hn hok
  have hmem : ∀ i, i ∈ (factorize H rows).done := fun i => by
    rw [factorize_done]; exact (order_perm H hn).mem_iff.mpr (hall i)
  exact solve_spec hL hmem hsq b hw i

/-- Substitution is linear in the right-hand side. -/
theorem substitute_linear (L : ι → ι → ℝ) (c : ι → ℝ) (b : ι → ι → ℝ) : ∀ (rest pre : List ι) (y : ι → ι → ℝ),
    (fun i => ∑ j, substitute L (b j) pre rest (y j) i * c j)
      = substitute L (fun i => ∑ j, b j i * c j) pre rest (fun i => ∑ j, y j i * c j)
  | [], pre, y => rfl
  | k :: rest, pre, y => by
    have ih := substitute_linear L c b rest (pre ++ [k])
      fun j => Function.update (y j) k (b j k - Scalar.sum (pre.map fun l => L k l * y j l))
    simp only [substitute]
    rw [ih]
    congr 1
    funext i
    by_cases h : i = k
    · subst h
      simp only [Function.update_self, real_sum]
      have key : ∀ l : List ι, ∑ j, (l.map fun m => L i m * y j m).sum * c j = (l.map fun m => L i m * ∑ j, y j m * c j).sum := by
        intro l
        induction l with
        | nil => simp
        | cons m l ih =>
          simp only [List.map_cons, List.sum_cons, add_mul, Finset.sum_add_distrib, ih, Finset.mul_sum]
          congr 1
          exact Finset.sum_congr rfl fun j _ => by ring
      rw [← key, ← Finset.sum_sub_distrib]
      exact Finset.sum_congr rfl fun j _ => by ring
    · simp [Function.update_of_ne h]

/-- The columns for the identity combine to the solution for any right-hand side. -/
theorem solve_columns (f : Fact ι ℝ) (b : ι → ℝ) (i : ι) :
    ∑ j, f.solve 0 (fun l => if l = j then 1 else 0) i * b j = f.solve 0 b i := by
  unfold Fact.solve
  have h1 := fun k => congrFun (substitute_linear f.L b (fun j l => if l = j then 1 else 0) f.done [] (fun _ _ => 0)) k
  have h2 := congrFun (substitute_linear (fun i j => f.L j i) b (fun j i => if (0 : ℝ) < Scalar.abs (f.D i) then
    substitute f.L (fun l => if l = j then 1 else 0) [] f.done (fun _ => 0) i / f.D i else 0) f.done.reverse [] (fun _ _ => 0)) i
  rw [h2]
  have e0 : (fun i : ι => ∑ j : ι, (0 : ℝ) * b j) = fun _ => 0 := by funext i; simp
  have e1 : (fun i => ∑ j, (if i = j then (1 : ℝ) else 0) * b j) = b := by funext i; simp
  rw [e0]
  congr 1
  funext k
  have hk := h1 k
  rw [e0, e1] at hk
  by_cases h : (0 : ℝ) < Scalar.abs (f.D k)
  · simp only [if_pos h]
    rw [← hk, div_eq_mul_inv, Finset.sum_mul]
    exact Finset.sum_congr rfl fun j _ => by ring
  · simp only [if_neg h]
    simp

end MiniOpt.LDLT
