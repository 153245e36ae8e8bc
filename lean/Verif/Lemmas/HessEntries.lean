import Verif.Lemmas.Linearize

/-!
# The entries `UpdateHessian` changes, over any scalar
-/

set_option autoImplicit false

namespace MiniOpt.NLS

open MiniOpt.Spec MiniOpt.Props

variable {α : Type} [Scalar α] {n D : Nat}

theorem addLower_other (H : Fin D → Fin D → α) (a c : Fin D) (v : α) (i j : Fin D) (h : ¬ (i = max a c ∧ j = min a c)) :
    Residual.addLower H a c v i j = H i j := by
  unfold Residual.addLower
  split_ifs with hc
  · rw [max_eq_left hc, min_eq_right hc] at h
    by_cases hi : i = a
    · subst hi
      rw [Function.update_self, Function.update_of_ne (fun hj => h ⟨rfl, hj⟩)]
    · rw [Function.update_of_ne hi]
  · have hc' := (not_le.mp hc).le
    rw [max_eq_right hc', min_eq_left hc'] at h
    by_cases hi : i = c
    · subst hi
      rw [Function.update_self, Function.update_of_ne (fun hj => h ⟨rfl, hj⟩)]
    · rw [Function.update_of_ne hi]

theorem addLower_here (H : Fin D → Fin D → α) (a c : Fin D) (v : α) :
    Residual.addLower H a c v (max a c) (min a c) = H (max a c) (min a c) + v := by
  unfold Residual.addLower
  split_ifs with hc
  · rw [max_eq_left hc, min_eq_right hc, Function.update_self, Function.update_self]
  · have hc' := (not_le.mp hc).le
    rw [max_eq_right hc', min_eq_left hc', Function.update_self, Function.update_self]

section
variable {β : Type} (ra ca : β → Fin D) (v : β → α)

theorem fold_none (i j : Fin D) : ∀ (l : List β) (H : Fin D → Fin D → α),
    (∀ q ∈ l, ¬ (i = max (ra q) (ca q) ∧ j = min (ra q) (ca q))) →
    l.foldl (fun H q => Residual.addLower H (ra q) (ca q) (v q)) H i j = H i j := by
  intro l
  induction l with
  | nil => intro H _; rfl
  | cons q l ih =>
    intro H h
    rw [List.foldl_cons, ih _ (fun q' hq' => h q' (by simp [hq'])), addLower_other _ _ _ _ _ _ (h q (by simp))]

theorem fold_one (p : β) : ∀ (l : List β) (H : Fin D → Fin D → α), l.Nodup → p ∈ l →
    (∀ q ∈ l, max (ra p) (ca p) = max (ra q) (ca q) ∧ min (ra p) (ca p) = min (ra q) (ca q) → q = p) →
    l.foldl (fun H q => Residual.addLower H (ra q) (ca q) (v q)) H (max (ra p) (ca p)) (min (ra p) (ca p))
      = H (max (ra p) (ca p)) (min (ra p) (ca p)) + v p := by
  intro l
  induction l with
  | nil => intro H _ hp; cases hp
  | cons q l ih =>
    intro H hn hp h
    rw [List.foldl_cons]
    rw [List.nodup_cons] at hn
    rcases List.mem_cons.mp hp with rfl | hp
    · rw [fold_none, addLower_here]
      intro q' hq' hk
      exact hn.1 (h q' (by simp [hq']) hk ▸ hq')
    · rw [ih _ hn.2 hp (fun q' hq' => h q' (by simp [hq'])), addLower_other]
      intro hk
      exact hn.1 (h q (by simp) hk ▸ hp)

end

/-- The local pairs `(row, col)` in the order in which they are visited. -/
def localPairs (P : Nat) : List (Fin P × Fin P) :=
  (List.finRange P).flatMap fun row => ((List.finRange P).filter fun c => c ≤ row).map fun c => (row, c)

theorem mem_localPairs {P : Nat} (q : Fin P × Fin P) : q ∈ localPairs P ↔ q.2 ≤ q.1 := by
  unfold localPairs
  simp only [List.mem_flatMap, List.mem_map, List.mem_filter, List.mem_finRange, true_and, decide_eq_true_eq]
  constructor
  · rintro ⟨a, c, h, rfl⟩; exact h
  · intro h; exact ⟨q.1, q.2, h, rfl⟩

theorem nodup_localPairs (P : Nat) : (localPairs P).Nodup := by
  unfold localPairs
  rw [List.nodup_flatMap]
  refine ⟨fun a _ => ?_, ?_⟩
  · refine List.Nodup.map ?_ ((List.nodup_finRange P).filter _)
    intro c c' h
    exact (Prod.ext_iff.mp h).2
  · refine (List.nodup_finRange P).imp ?_
    intro a b hab q h1 h2
    obtain ⟨c, -, rfl⟩ := List.mem_map.mp h1
    obtain ⟨c', -, h⟩ := List.mem_map.mp h2
    exact hab (Prod.ext_iff.mp h).1.symm

theorem hess_fold (r : Residual α) (h : IdxIn r D) {d : Nat} (J : Fin d → Fin r.P → α) (H : Fin D → Fin D → α) :
    (List.finRange r.P).foldl (fun H row => ((List.finRange r.P).filter fun c => c ≤ row).foldl
          (fun H c => Residual.addLower H (idxFin r h row) (idxFin r h c)
            (dot (Residual.col J row) (Residual.col J c))) H) H
      = (localPairs r.P).foldl (fun H q => Residual.addLower H (idxFin r h q.1) (idxFin r h q.2)
          (dot (Residual.col J q.1) (Residual.col J q.2))) H := by
  unfold localPairs
  rw [List.foldl_flatMap]
  congr 1
  funext H row
  rw [List.foldl_map]

omit [Scalar α] in
theorem idxFin_inj (r : Residual α) (h : IdxIn r D) (hd : Distinct r) {a c : Fin r.P} (he : idxFin r h a = idxFin r h c) :
    a = c := by
  refine hd ?_
  have := (idxFin_eq_iff r h a (idxFin r h c)).mp he
  rw [this]
  exact ((idxFin_eq_iff r h c _).mp rfl).symm

/-- An entry visited by the pair `(a, c)`. -/
theorem hess_here (r : Residual α) (h : IdxIn r D) (hd : Distinct r) {d : Nat} (J : Fin d → Fin r.P → α)
    (H : Fin D → Fin D → α) (a c : Fin r.P) (hca : c ≤ a) :
    (localPairs r.P).foldl (fun H q => Residual.addLower H (idxFin r h q.1) (idxFin r h q.2)
          (dot (Residual.col J q.1) (Residual.col J q.2))) H
        (max (idxFin r h a) (idxFin r h c)) (min (idxFin r h a) (idxFin r h c))
      = H (max (idxFin r h a) (idxFin r h c)) (min (idxFin r h a) (idxFin r h c)) + dot (Residual.col J a) (Residual.col J c) := by
  refine fold_one (fun q : Fin r.P × Fin r.P => idxFin r h q.1) (fun q => idxFin r h q.2)
    (fun q => dot (Residual.col J q.1) (Residual.col J q.2)) (a, c) _ H (nodup_localPairs _) ((mem_localPairs _).mpr hca) ?_
  rintro ⟨a', c'⟩ hq ⟨h1, h2⟩
  have hca' : c' ≤ a' := (mem_localPairs _).mp hq
  simp only at h1 h2
  rcases le_total (idxFin r h a) (idxFin r h c) with o1 | o1 <;>
    rcases le_total (idxFin r h a') (idxFin r h c') with o2 | o2 <;>
    simp only [max_eq_left, max_eq_right, min_eq_left, min_eq_right, o1, o2] at h1 h2 <;>
    have e1 := idxFin_inj r h hd h1 <;> have e2 := idxFin_inj r h hd h2
  · subst e1 e2; rfl
  · subst e1 e2
    rw [le_antisymm hca hca']
  · subst e1 e2
    rw [le_antisymm hca hca']
  · subst e1 e2; rfl

theorem hess_other (r : Residual α) (h : IdxIn r D) {d : Nat} (J : Fin d → Fin r.P → α)
    (H : Fin D → Fin D → α) (i j : Fin D)
    (hn : ∀ a c : Fin r.P, ¬ (i = max (idxFin r h a) (idxFin r h c) ∧ j = min (idxFin r h a) (idxFin r h c))) :
    (localPairs r.P).foldl (fun H q => Residual.addLower H (idxFin r h q.1) (idxFin r h q.2)
          (dot (Residual.col J q.1) (Residual.col J q.2))) H i j = H i j :=
  fold_none (fun q : Fin r.P × Fin r.P => idxFin r h q.1) (fun q => idxFin r h q.2)
    (fun q => dot (Residual.col J q.1) (Residual.col J q.2)) i j _ H fun q _ => hn q.1 q.2

/-- The gradient loop. -/
theorem grad_here (r : Residual α) (h : IdxIn r D) (hd : Distinct r) (v : Fin r.P → α) (a : Fin r.P) :
    ∀ (l : List (Fin r.P)) (b : Fin D → α), l.Nodup →
    l.foldl (fun b row => Function.update b (idxFin r h row) (b (idxFin r h row) + v row)) b (idxFin r h a)
      = if a ∈ l then b (idxFin r h a) + v a else b (idxFin r h a) := by
  intro l
  induction l with
  | nil => intro b _; simp
  | cons q l ih =>
    intro b hn
    rw [List.nodup_cons] at hn
    rw [List.foldl_cons, ih _ hn.2]
    by_cases hq : a = q
    · subst hq
      simp [hn.1]
    · have hne : idxFin r h a ≠ idxFin r h q := fun he => hq (idxFin_inj r h hd he)
      rw [Function.update_of_ne hne]
      simp [hq]

theorem grad_other (r : Residual α) (h : IdxIn r D) (v : Fin r.P → α) (i : Fin D) (hi : ∀ a, idxFin r h a ≠ i) :
    ∀ (l : List (Fin r.P)) (b : Fin D → α),
    l.foldl (fun b row => Function.update b (idxFin r h row) (b (idxFin r h row) + v row)) b i = b i := by
  intro l
  induction l with
  | nil => intro b; rfl
  | cons q l ih =>
    intro b
    rw [List.foldl_cons, ih, Function.update_of_ne (hi q).symm]

/-- What a completed `UpdateHessian` did, over any scalar. -/
theorem updateHessian_form {r : Residual α} {x : Fin n → α} {H H' : Fin D → Fin D → α} {b b' : Fin D → α} {f : α}
    (hn : IdxIn r n) (hD : IdxIn r D) (h : r.updateHessian x H b = .ok (H', b', f)) :
    H' = (localPairs r.P).foldl (fun H q => Residual.addLower H (idxFin r hD q.1) (idxFin r hD q.2)
      (dot (Residual.col (r.jac (params r x)) q.1) (Residual.col (r.jac (params r x)) q.2))) H ∧
    b' = (List.finRange r.P).foldl (fun b row => Function.update b (idxFin r hD row)
          (b (idxFin r hD row) + dot (Residual.col (r.jac (params r x)) row) (r.valueJ (params r x)))) b ∧
    f = Residual.half * squaredNorm (r.valueJ (params r x)) := by
  by_cases ht : r.throwsJ (readParams r hn x) = false
  · rw [updateHessian_ok r x hn hD ht, params_eq, hess_fold] at h
    cases h
    exact ⟨rfl, rfl, rfl⟩
  · rw [Bool.not_eq_false] at ht
    unfold Residual.updateHessian at h
    rw [gather_ok r x hn] at h
    simp only [ht, if_true] at h
    cases h

end MiniOpt.NLS

namespace MiniOpt.NLS

open MiniOpt.Spec MiniOpt.Props

variable {α : Type} [Scalar α] {n D : Nat}

/-! ### Equality rows -/

omit [Scalar α] in
theorem scatter_other (r : Residual α) (h : IdxIn r D) {d : Nat} (J : Fin d → Fin r.P → α) (k : Fin d) (j : Fin D)
    (hj : ∀ c, r.index c ≠ (j.val : Int)) : ∀ (l : List (Fin r.P)) (A : Fin d → Fin D → α),
    l.foldl (fun A c => fun k => Function.update (A k) (idxFin r h c) (J k c)) A k j = A k j := by
  intro l
  induction l with
  | nil => intro A; rfl
  | cons c l ih =>
    intro A
    rw [List.foldl_cons, ih, Function.update_of_ne]
    intro he
    exact hj c ((idxFin_eq_iff r h c j).mp he.symm)

omit [Scalar α] in
theorem scatter_here (r : Residual α) (h : IdxIn r D) (hd : Distinct r) {d : Nat} (J : Fin d → Fin r.P → α) (k : Fin d)
    (a : Fin r.P) : ∀ (l : List (Fin r.P)) (A : Fin d → Fin D → α),
    l.foldl (fun A c => fun k => Function.update (A k) (idxFin r h c) (J k c)) A k (idxFin r h a)
      = if a ∈ l then J k a else A k (idxFin r h a) := by
  intro l
  induction l with
  | nil => intro A; simp
  | cons c l ih =>
    intro A
    rw [List.foldl_cons, ih]
    by_cases hc : a = c
    · subst hc
      simp
    · rw [Function.update_of_ne (fun he => hc (idxFin_inj r h hd he))]
      simp [hc]

theorem updateJacobian_form {r : Residual α} {x : Fin n → α} {A A' : Fin r.dim → Fin D → α} {b b' : Fin r.dim → α}
    (hn : IdxIn r n) (hD : IdxIn r D) (h : r.updateJacobian x r.dim r.dim A b = .ok (A', b')) :
    A' = (List.finRange r.P).foldl
      (fun A c => fun k => Function.update (A k) (idxFin r hD c) (r.jac (params r x) k c)) A ∧
    b' = r.valueJ (params r x) := by
  have hq := updateJacobian_quiet h
  rw [updateJacobian_ok r x hn hD (by rw [params_eq]; exact hq), params_eq] at h
  cases h
  exact ⟨rfl, rfl⟩

/-- What a completed equality loop wrote: the rows before `row` are as they were, each residual's block has its values and its
Jacobian, and what was there before in the columns of parameters it does not read. -/
theorem linEqs_rows {K : Nat} {x : Fin n → α} : ∀ (l : List (Residual α)),
    (∀ r ∈ l, IdxIn r n ∧ IdxIn r D ∧ Distinct r) →
    ∀ (row : Nat) (A A' : Fin K → Fin D → α) (b b' : Fin K → α) (f f' : α),
    linEqs x l row A b f = .ok (A', b', f') →
    (∀ ρ : Fin K, ρ.val < row → A' ρ = A ρ ∧ b' ρ = b ρ) ∧
    ∀ (pre : List (Residual α)) (r : Residual α) (post : List (Residual α)), l = pre ++ r :: post →
      ∀ (k : Fin r.dim) (ρ : Fin K), ρ.val = row + (pre.map (·.dim)).sum + k.val →
      b' ρ = r.valueJ (params r x) k ∧
      ∀ j, (∀ c, r.index c = (j.val : Int) → A' ρ j = r.jac (params r x) k c) ∧
        ((∀ c, r.index c ≠ (j.val : Int)) → A' ρ j = A ρ j) := by
  intro l
  induction l with
  | nil =>
    intro _ row A A' b b' f f' h
    simp only [linEqs] at h
    cases h
    refine ⟨fun _ _ => ⟨rfl, rfl⟩, fun pre r post he => ?_⟩
    exact absurd he.symm (by simp)
  | cons r0 l ih =>
    intro hl row A A' b b' f f' h
    obtain ⟨i1, i2, i3⟩ := hl r0 (by simp)
    simp only [linEqs] at h
    split at h
    · rename_i hK
      split at h
      · cases h
      · rename_i A1 b1 he
        obtain ⟨e1, e2⟩ := updateJacobian_form i1 i2 he
        obtain ⟨h1, h2⟩ := ih (fun r hr => hl r (by simp [hr])) _ _ _ _ _ _ _ h
        refine ⟨fun ρ hρ => ?_, ?_⟩
        · obtain ⟨q1, q2⟩ := h1 ρ (by omega)
          rw [q1, q2]
          unfold setRows
          rw [dif_neg (by omega), dif_neg (by omega)]
          exact ⟨rfl, rfl⟩
        · intro pre r post hsplit k ρ hρ
          cases pre with
          | nil =>
            simp only [List.nil_append, List.cons.injEq] at hsplit
            obtain ⟨rfl, rfl⟩ := hsplit
            simp only [List.map_nil, List.sum_nil, Nat.add_zero] at hρ
            have hk := k.2
            obtain ⟨q1, q2⟩ := h1 ρ (by omega)
            rw [q1, q2]
            have hk2 : (⟨ρ.val - row, by omega⟩ : Fin r0.dim) = k := Fin.ext (by simp only; omega)
            unfold setRows
            rw [dif_pos (by omega), dif_pos (by omega), e1, e2, hk2]
            refine ⟨rfl, fun j => ⟨fun c hc => ?_, fun hj => ?_⟩⟩
            · have := scatter_here r0 i2 i3 (r0.jac (params r0 x)) k c (List.finRange r0.P) (getRows A row hK)
              rw [(idxFin_eq_iff r0 i2 c j).mpr hc, if_pos (List.mem_finRange c)] at this
              exact this
            · rw [scatter_other r0 i2 _ k j hj]
              have hρ2 : (⟨row + k.val, by omega⟩ : Fin K) = ρ := Fin.ext (by simp only; omega)
              show A ⟨row + k.val, _⟩ j = A ρ j
              rw [hρ2]
          | cons r1 pre =>
            simp only [List.cons_append, List.cons.injEq] at hsplit
            obtain ⟨rfl, rfl⟩ := hsplit
            simp only [List.map_cons, List.sum_cons] at hρ
            obtain ⟨q1, q2⟩ := h2 pre r post rfl k ρ (by omega)
            refine ⟨q1, fun j => ⟨(q2 j).1, fun hj => ?_⟩⟩
            rw [(q2 j).2 hj]
            unfold setRows
            rw [dif_neg (by omega)]
    · cases h

/-- The bounds, shifted. -/
theorem shiftLoop_form (x : Fin n → α) : ∀ (l : List (Ineq α)) (con), shiftLoop x l = .ok con →
    ∀ i : Fin l.length, ∃ h : 0 ≤ (l.get i).var ∧ (l.get i).var < (n : Int),
      con i = ⟨(l.get i).var, (l.get i).a, (l.get i).a * x ⟨(l.get i).var.toNat, by omega⟩ + (l.get i).b⟩ := by
  intro l
  induction l with
  | nil => intro con _ i; exact i.elim0
  | cons c l ih =>
    intro con h
    simp only [shiftLoop] at h
    split at h
    · cases h
    · rename_i c' hc
      split at h
      · cases h
      · rename_i cs' hcs
        cases h
        intro i
        refine Fin.cases ?_ (fun i => ?_) i
        · simp only [List.get_cons_zero, Fin.cons_zero]
          unfold shiftAt at hc
          split_ifs at hc
          unfold toFin at hc
          split_ifs at hc with hr
          · cases hc
            exact ⟨hr, rfl⟩
        · simp only [Fin.cons_succ]
          exact ih _ hcs i

end MiniOpt.NLS
