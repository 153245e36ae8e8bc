import Verif.Props.QPResult

/-!
# C19, C25: what a solve does *not* depend on (any arithmetic)
-/

set_option autoImplicit false

namespace MiniOpt.Props

open MiniOpt MiniOpt.Spec MiniOpt.IP

variable {α : Type} [Scalar α] {N M K : Nat}

/-! ## C25 -/

/-- The problem with its Hessian replaced. -/
def withG (p : QP N M K α) (G : Fin N → Fin N → α) : QP N M K α := { p with G := G }

omit [Scalar α] in
theorem symLower_congr {G G' : Fin N → Fin N → α} (h : ∀ i j, j ≤ i → G i j = G' i j) :
    symLower G = symLower G' := by
  funext i j
  unfold symLower
  split_ifs with hij
  · exact h i j hij
  · exact h j i (not_le.mp hij).le

section lower
variable (p : QP N M K α) (G' : Fin N → Fin N → α) (h : ∀ i j, j ≤ i → p.G i j = G' i j)
include h

theorem evaluateKKT_lower (b : Bool) (st : IPState N M K α) :
    evaluateKKT (withG p G') b st = evaluateKKT p b st := by
  unfold evaluateKKT withG
  simp only [← symLower_congr h]

theorem fillH_lower (b : Bool) (st : IPState N M K α) : fillH (withG p G') b st = fillH p b st := by
  unfold fillH withG
  have e : ∀ (i j : Fin N) (x : α), (if j ≤ i then G' i j else x) = if j ≤ i then p.G i j else x := by
    intro i j x
    split_ifs with hij
    · exact (h i j hij).symm
    · rfl
  simp only [e]

theorem computeLDLT_lower (E : Eigen N K α) (b : Bool) (st : IPState N M K α) :
    computeLDLT E (withG p G') b st = computeLDLT E p b st := by
  unfold computeLDLT; rw [fillH_lower p G' h]

theorem iterate_lower (E : Eigen N K α) (mu : α) (s : BarrierStrategy) (st : IPState N M K α) :
    iterate E (withG p G') mu s st = iterate E p mu s st := by
  unfold iterate
  rw [evaluateKKT_lower p G' h, computeLDLT_lower p G' h]
  rfl

omit h in
theorem clampAll_withG : ∀ (l : List (Fin M)) (x : Fin N → α),
    clampAll (withG p G') l x = clampAll p l x := by
  intro l
  induction l with
  | nil => intro x; rfl
  | cons i l ih => intro x; simp only [clampAll]; rw [show (withG p G').con i = p.con i from rfl]; simp only [ih]

omit h in
theorem finishGuess_withG (st : IPState N M K α) : finishGuess (withG p G') st = finishGuess p st := by
  unfold finishGuess
  rw [clampAll_withG p G']
  rfl

theorem initialGuess_lower (E : Eigen N K α) (g : InitialGuessMethod) (st : IPState N M K α) :
    initialGuess E (withG p G') g st = initialGuess E p g st := by
  unfold initialGuess
  simp only [finishGuess_withG p G', computeLDLT_lower p G' h, evaluateKKT_lower p G' h]

theorem solveLoop_lower (E : Eigen N K α) (prm : QPParams α) : ∀ (n : Nat) (st : IPState N M K α) (mu : α)
    (log : List (QPIteration α)),
    solveLoop E (withG p G') prm n st mu log = solveLoop E p prm n st mu log := by
  intro n
  induction n with
  | zero => intro st mu log; rfl
  | succ n ih =>
    intro st mu log
    simp only [solveLoop, iterate_lower p G' h, evaluateKKT_lower p G' h, ih]

/-- **C25** (any arithmetic). Replacing `G` by any matrix with the same lower triangle (diagonal included)
changes nothing at all: same outputs, same final object state, same faults. -/
theorem C25_only_lower_triangle (E : Eigen N K α) (prm : QPParams α) (st : IPState N M K α) :
    solve E { p with G := G' } prm st = solve E p prm st := by
  show solve E (withG p G') prm st = _
  unfold solve
  simp only [initialGuess_lower p G' h, evaluateKKT_lower p G' h, solveLoop_lower p G' h]
end lower

example : ∃ G' : Fin 2 → Fin 2 → ℝ, (∀ i j, j ≤ i → demoQP.G i j = G' i j) ∧ G' ≠ demoQP.G := by
  refine ⟨!![1, 0; 0, 1], fun i j hij => ?_, fun he => ?_⟩
  · fin_cases i <;> fin_cases j <;> simp [demoQP] at hij ⊢
  · have := congrFun (congrFun he 0) 1
    simp [demoQP] at this

/-! ## C19 -/

/-- What the caller can observe of a call to `Solve` that returns: the outputs and the variables; of one
that throws: the exception. -/
def observe (r : SRes (IPState N M K α) (IPState N M K α × QPOutputs α)) :
    Except Fault (Blocks N M K α × QPOutputs α) :=
  match r with
  | .ok (st, out) => .ok (st.v, out)
  | .error (e, _) => .error e

/-- The objects that can exist: `Setup` on arbitrary memory (whatever was there before, e.g. from problems
of other dimensions), then any number of calls to `Solve` (with any parameters, returning or throwing),
and overwriting the variables (`SetVariables`, `x_block()`, ...). -/
inductive Reachable (E : Eigen N K α) (p : QP N M K α) : IPState N M K α → Prop where
  | setup (junk) : Reachable E p (setupState junk)
  | setVariables {st} (v) : Reachable E p st → Reachable E p { st with v := v }
  | solved {st prm r} : Reachable E p st → solve E p prm st = .ok r → Reachable E p r.1
  | threw {st prm e} : Reachable E p st → solve E p prm st = .error e → Reachable E p e.2

theorem WF_computeLDLT_error {E : Eigen N K α} {p : QP N M K α} {b : Bool} {st : IPState N M K α}
    {e : Fault × IPState N M K α} (hwf : WF st) (h : computeLDLT E p b st = .error e) : WF e.2 := by
  unfold computeLDLT at h
  split_ifs at h
  · simp only at h
    split at h
    · cases h
      intro k l
      show fillH p b st _ _ = 0
      rw [fillH_br]; exact hwf k l
    · cases h
  · cases h; exact hwf

theorem WF_iterate_error {E : Eigen N K α} {p : QP N M K α} {mu : α} {s : BarrierStrategy}
    {st : IPState N M K α} {e : Fault × IPState N M K α} (hwf : WF st)
    (h : iterate E p mu s st = .error e) : WF e.2 := by
  unfold iterate at h
  split at h
  · rename_i e' he'
    cases h
    exact WF_computeLDLT_error (WF_evaluateKKT hwf) he'
  · cases h

theorem WF_finishGuess_error {p : QP N M K α} {st : IPState N M K α} {e : Fault × IPState N M K α}
    (hwf : WF st) (h : finishGuess p st = .error e) : WF e.2 := by
  unfold finishGuess at h
  split at h
  · cases h; exact hwf
  · cases h

theorem WF_initialGuess_error {E : Eigen N K α} {p : QP N M K α} {g : InitialGuessMethod}
    {st : IPState N M K α} {e : Fault × IPState N M K α} (hwf : WF st)
    (h : initialGuess E p g st = .error e) : WF e.2 := by
  unfold initialGuess at h
  split at h
  · cases h
  · refine WF_finishGuess_error ?_ h; exact hwf
  · split at h
    · rename_i e' he'
      cases h
      refine WF_computeLDLT_error ?_ he'; exact hwf
    · rename_i st1 h1
      refine WF_finishGuess_error ?_ h
      have : WF st1 := WF_computeLDLT (st := { st with v := { st.v with x := fun _ => 0, y := fun _ => 0 } })
        (by exact hwf) h1
      exact fun k l => WF_evaluateKKT (p := p) (b := false) this k l

theorem WF_solve {E : Eigen N K α} {p : QP N M K α} {prm : QPParams α} {st : IPState N M K α} (hwf : WF st) :
    (∀ r, solve E p prm st = .ok r → WF r.1) ∧ ∀ e, solve E p prm st = .error e → WF e.2 := by
  have main : match solve E p prm st with
      | .ok r => WF r.1
      | .error e => WF e.2 := by
    cases hc : checkParams prm with
    | error e => simp [solve, hc, hwf]
    | ok _ =>
      cases h0 : initialGuess E p prm.initialGuessMethod st with
      | error e => simp only [solve, hc, h0]; exact WF_initialGuess_error hwf h0
      | ok st0 =>
        have hwf0 := WF_evaluateKKT (p := p) (b := true) (WF_initialGuess hwf h0)
        have := solveLoop_rule E p prm (fun _ s _ _ => WF s) (fun r => WF r.1) (fun e => WF e.2)
          (by rintro n s mu log st2 it hI ⟨⟨st1, h1, rfl⟩, _, _⟩ _; exact WF_evaluateKKT (WF_iterate hI h1))
          (by
            rintro n s mu log st2 it hI ⟨⟨st1, h1, rfl⟩, _, _⟩ _
            exact WF_evaluateKKT (p := p) (b := true) (WF_iterate hI h1))
          (fun s mu log h => h)
          (fun n s mu log e hI he => WF_iterate_error hI he)
          prm.maxIterations.toNat (evaluateKKT p true st0) (initialMu prm (evaluateKKT p true st0)) [] hwf0
        simp only [solve, hc, h0]
        exact this
  constructor
  · intro r h; rw [h] at main; exact main
  · intro e h; rw [h] at main; exact main

theorem Reachable.wf {E : Eigen N K α} {p : QP N M K α} {st : IPState N M K α} (h : Reachable E p st) :
    WF st := by
  induction h with
  | setup junk => exact fun _ _ => rfl
  | setVariables v _ ih => exact ih
  | solved _ h ih => exact (WF_solve ih).1 _ h
  | threw _ h ih => exact (WF_solve ih).2 _ h

/-- Same variables; the rest of the object is arbitrary apart from the never-written zero block. -/
structure Sim (st st' : IPState N M K α) : Prop where
  v : st.v = st'.v
  w : WF st
  w' : WF st'

theorem evaluateKKT_sim (p : QP N M K α) {st st' : IPState N M K α} (h : st.v = st'.v) :
    (evaluateKKT p true st).r = (evaluateKKT p true st').r := by
  unfold evaluateKKT
  simp only [if_true, h]
  split_ifs with hK
  · rfl
  · obtain rfl : K = 0 := by omega
    have : st.r.y = st'.r.y := funext fun k => k.elim0
    rw [this]

theorem symRed_fillH_sim (p : QP N M K α) (b : Bool) {st st' : IPState N M K α} (h : Sim st st') :
    symRed (fillH p b st) = symRed (fillH p b st') := by
  -- the fold preserves agreement on the entries `symRed` reads
  have key : ∀ (L : List (Fin M)) (H H' : Red N K → Red N K → α),
      (∀ i j, j ≤ i → H (.inl i) (.inl j) = H' (.inl i) (.inl j)) →
      (∀ k j, H (.inr k) (.inl j) = H' (.inr k) (.inl j)) →
      let F := fun (H : Red N K → Red N K → α) (i : Fin M) => Function.update H (.inl (p.con i).var)
        (Function.update (H (.inl (p.con i).var)) (.inl (p.con i).var)
          (H (.inl (p.con i).var) (.inl (p.con i).var) +
            (p.con i).a * (st'.v.z i / st'.v.s i) * (p.con i).a))
      (∀ i j, j ≤ i → L.foldl F H (.inl i) (.inl j) = L.foldl F H' (.inl i) (.inl j)) ∧
      (∀ k j, L.foldl F H (.inr k) (.inl j) = L.foldl F H' (.inr k) (.inl j)) := by
    intro L
    induction L with
    | nil => intro H H' h1 h2; exact ⟨h1, h2⟩
    | cons a L ih =>
      intro H H' h1 h2
      refine ih _ _ ?_ ?_
      · intro i j hij
        dsimp only
        by_cases hi : i = (p.con a).var
        · subst hi
          rw [Function.update_self, Function.update_self]
          by_cases hj : j = (p.con a).var
          · subst hj; rw [Function.update_self, Function.update_self, h1 _ _ le_rfl]
          · rw [Function.update_of_ne (by simpa using hj), Function.update_of_ne (by simpa using hj)]
            exact h1 _ _ hij
        · rw [Function.update_of_ne (by simpa using hi), Function.update_of_ne (by simpa using hi)]
          exact h1 _ _ hij
      · intro k j
        dsimp only
        rw [Function.update_of_ne (by simp), Function.update_of_ne (by simp)]
        exact h2 _ _
  have hbr : ∀ k l, fillH p b st (.inr k) (.inr l) = fillH p b st' (.inr k) (.inr l) := by
    intro k l; rw [fillH_br, fillH_br, h.w k l, h.w' k l]
  have hlow : (∀ i j, j ≤ i → fillH p b st (.inl i) (.inl j) = fillH p b st' (.inl i) (.inl j)) ∧
      (∀ k j, fillH p b st (.inr k) (.inl j) = fillH p b st' (.inr k) (.inl j)) := by
    have e1 : ∀ i j, j ≤ i → (if j ≤ i then p.G i j else st.H (.inl i) (.inl j))
        = (if j ≤ i then p.G i j else st'.H (.inl i) (.inl j)) := fun i j hij => by simp [hij]
    have e2 : ∀ (k : Fin K) j, (if 0 < K then p.A k j else st.H (.inr k) (.inl j))
        = (if 0 < K then p.A k j else st'.H (.inr k) (.inl j)) := fun k j => by simp [k.pos]
    unfold fillH
    cases b
    · simp only [Bool.false_eq_true, if_false]; exact ⟨e1, e2⟩
    · simp only [if_true, h.v]
      exact key (List.finRange M) _ _ e1 e2
  funext r c
  rcases r with i | k <;> rcases c with j | l <;> simp only [symRed]
  · split_ifs with hij
    · exact hlow.1 i j hij
    · exact hlow.1 j i (not_le.mp hij).le
  · exact hlow.2 l i
  · exact hlow.2 k j
  · split_ifs <;> exact hbr _ _

/-- Same fault, or states that agree on everything except the unread part of `H`. -/
theorem computeLDLT_sim (E : Eigen N K α) (p : QP N M K α) (b : Bool) {st st' : IPState N M K α}
    (h : Sim st st') :
    (∃ e s s', computeLDLT E p b st = .error (e, s) ∧ computeLDLT E p b st' = .error (e, s')) ∨
    (∃ s s', computeLDLT E p b st = .ok s ∧ computeLDLT E p b st' = .ok s' ∧ Sim s s' ∧
      s.r = st.r ∧ s'.r = st'.r ∧ s.Hinv = s'.Hinv ∧ s.delta = s'.delta ∧
      s.deltaAff = s'.deltaAff) := by
  unfold computeLDLT
  rw [h.v]
  by_cases hc : b = false ∨ ∀ i, (0 : α) < st'.v.s i
  · rw [if_pos hc, if_pos hc]
    simp only [symRed_fillH_sim p b h]
    cases hE : E.ldltInverse (symRed (fillH p b st')) with
    | none => exact Or.inl ⟨_, _, _, rfl, rfl⟩
    | some Hinv =>
      refine Or.inr ⟨_, _, rfl, rfl, ⟨rfl, ?_, ?_⟩, rfl, rfl, rfl, rfl, rfl⟩
      · intro k l; show fillH p b st _ _ = 0; rw [fillH_br]; exact h.w k l
      · intro k l; show fillH p b st' _ _ = 0; rw [fillH_br]; exact h.w' k l
  · rw [if_neg hc, if_neg hc]; exact Or.inl ⟨_, _, _, rfl, rfl⟩

/-- `direction` reads only `v`, `r`, `Hinv`, `delta`, `deltaAff`. -/
theorem direction_sim (p : QP N M K α) (mu : α) (s : BarrierStrategy) (a b : IPState N M K α)
    (hv : a.v = b.v) (hr : a.r = b.r) (hH : a.Hinv = b.Hinv) (hd : a.delta = b.delta)
    (hda : a.deltaAff = b.deltaAff) :
    direction p mu s { b with H := a.H, rDualAug := a.rDualAug } = direction p mu s a := by
  obtain ⟨av, ar, arda, aH, aHi, ad, ada⟩ := a
  simp only at hv hr hH hd hda
  subst hv hr hH hd hda
  rfl

theorem direction_H (p : QP N M K α) (mu : α) (s : BarrierStrategy) (b : IPState N M K α)
    (H : Red N K → Red N K → α) (rda : Fin N → α) :
    (direction p mu s { b with H := H, rDualAug := rda }).2 = (direction p mu s b).2 ∧
    (direction p mu s { b with H := H, rDualAug := rda }).1 = { (direction p mu s b).1 with H := H } := by
  unfold direction
  split_ifs <;> exact ⟨rfl, rfl⟩

theorem iterate_sim (E : Eigen N K α) (p : QP N M K α) (mu : α) (s : BarrierStrategy)
    {st st' : IPState N M K α} (h : Sim st st') :
    (∃ e a a', iterate E p mu s st = .error (e, a) ∧ iterate E p mu s st' = .error (e, a')) ∨
    (∃ a a' o, iterate E p mu s st = .ok (a, o) ∧ iterate E p mu s st' = .ok (a', o) ∧ Sim a a') := by
  have hk : Sim (evaluateKKT p true st) (evaluateKKT p true st') :=
    ⟨by rw [evaluateKKT_v', evaluateKKT_v', h.v], WF_evaluateKKT h.w, WF_evaluateKKT h.w'⟩
  rcases computeLDLT_sim E p true hk with ⟨e, a, a', h1, h2⟩ | ⟨a, a', h1, h2, hs, hr, hr', hi, hd, hda⟩
  · left
    exact ⟨e, a, a', by simp [iterate, h1], by simp [iterate, h2]⟩
  · right
    have hrr : a.r = a'.r := by rw [hr, hr', evaluateKKT_sim p h.v]
    have e1 := direction_sim p mu s a a' hs.v hrr hi hd hda
    obtain ⟨e2, e3⟩ := direction_H p mu s a' a.H a.rDualAug
    rw [e1] at e2 e3
    have hwd : ∀ x : IPState N M K α, WF x → WF (direction p mu s x).1 := fun x hx k l => by
      rw [(direction_fields p mu s x).2.2.1]; exact hx k l
    unfold iterate
    rw [h1, h2]
    simp only
    refine ⟨_, _, _, rfl, congrArg Except.ok (Prod.ext rfl ?_), ?_, ?_, ?_⟩
    · simp only [e2, e3]; rfl
    · simp only [e3]; rfl
    · exact hwd a hs.w
    · exact hwd a' hs.w'

theorem solveLoop_sim (E : Eigen N K α) (p : QP N M K α) (prm : QPParams α) : ∀ (n : Nat)
    (st st' : IPState N M K α) (mu : α) (log : List (QPIteration α)), Sim st st' → st.r = st'.r →
    observe (solveLoop E p prm n st mu log) = observe (solveLoop E p prm n st' mu log) := by
  intro n
  induction n with
  | zero => intro st st' mu log h hr; simp [solveLoop, observe, h.v]
  | succ n ih =>
    intro st st' mu log h hr
    rcases iterate_sim E p mu prm.barrierStrategy h with ⟨e, a, a', h1, h2⟩ | ⟨a, a', o, h1, h2, hs⟩
    · simp [solveLoop, h1, h2, observe]
    · have hv2 : (evaluateKKT p true a).v = (evaluateKKT p true a').v := by
        rw [evaluateKKT_v', evaluateKKT_v', hs.v]
      have hr2 := evaluateKKT_sim p hs.v
      have hs2 : Sim (evaluateKKT p true a) (evaluateKKT p true a') :=
        ⟨hv2, WF_evaluateKKT hs.w, WF_evaluateKKT hs.w'⟩
      have c1 : ∀ m, computeErrors m (evaluateKKT p true a) = computeErrors m (evaluateKKT p true a') := by
        intro m; unfold computeErrors; rw [hr2]
      have c0 : computeErrors mu st = computeErrors mu st' := by unfold computeErrors; rw [hr]
      have c2 : computeMu (evaluateKKT p true a) = computeMu (evaluateKKT p true a') := by
        unfold computeMu; rw [hv2]
      have c3 : ∀ k, nextMu prm k (evaluateKKT p true a) mu = nextMu prm k (evaluateKKT p true a') mu := by
        intro k; unfold nextMu; rw [c2]
      simp only [solveLoop, h1, h2, c0, c1, c2, c3]
      split_ifs
      · simp [observe, hv2]
      · exact ih _ _ _ _ hs2 hr2

theorem finishGuess_sim (p : QP N M K α) {st st' : IPState N M K α} (hx : st.v.x = st'.v.x)
    (hy : st.v.y = st'.v.y) (hw : WF st) (hw' : WF st') :
    (∃ e a a', finishGuess p st = .error (e, a) ∧ finishGuess p st' = .error (e, a')) ∨
    (∃ a a', finishGuess p st = .ok a ∧ finishGuess p st' = .ok a' ∧ Sim a a') := by
  unfold finishGuess
  rw [hx]
  cases hc : clampAll p (List.finRange M) st'.v.x with
  | error e => exact Or.inl ⟨_, _, _, rfl, rfl⟩
  | ok x =>
    refine Or.inr ⟨_, _, rfl, rfl, ?_, hw, hw'⟩
    simp only [hy]

theorem initialGuess_sim (E : Eigen N K α) (p : QP N M K α) (g : InitialGuessMethod)
    {st st' : IPState N M K α} (hw : WF st) (hw' : WF st')
    (hg : g = .userProvided → st.v = st'.v) :
    (∃ e a a', initialGuess E p g st = .error (e, a) ∧ initialGuess E p g st' = .error (e, a')) ∨
    (∃ a a', initialGuess E p g st = .ok a ∧ initialGuess E p g st' = .ok a' ∧ Sim a a') := by
  cases g with
  | userProvided => exact Or.inr ⟨st, st', rfl, rfl, hg rfl, hw, hw'⟩
  | naive =>
    unfold initialGuess
    exact finishGuess_sim p rfl rfl hw hw'
  | solveEqualityConstrained =>
    unfold initialGuess
    -- make the (unread) slack blocks equal as well
    set z : IPState N M K α := { st with v := { st.v with x := fun _ => 0, y := fun _ => 0 } } with hz
    set z' : IPState N M K α := { st' with v := { st'.v with x := fun _ => 0, y := fun _ => 0 } } with hz'
    have hfill : symRed (fillH p false z) = symRed (fillH p false z') := by
      have hs : Sim z { z' with v := z.v } := ⟨rfl, hw, hw'⟩
      have := symRed_fillH_sim p false hs
      rw [this]; rfl
    simp only [computeLDLT, true_or, if_true, hfill]
    cases hE : E.ldltInverse (symRed (fillH p false z')) with
    | none => exact Or.inl ⟨_, _, _, rfl, rfl⟩
    | some Hinv =>
      simp only
      apply finishGuess_sim
      · simp only [solveForUpdateNoIneq, evaluateKKT, applyInvX, hz, hz', Blocks.zero, Bool.false_eq_true,
          if_false]
        rcases Nat.eq_zero_or_pos K with rfl | hK
        · simp
        · simp [hK]
      · simp only [solveForUpdateNoIneq, evaluateKKT, applyInvY, hz, hz', Blocks.zero, Bool.false_eq_true,
          if_false]
        rcases Nat.eq_zero_or_pos K with rfl | hK
        · simp
        · simp [hK]
      · have hz2 : WF { z with
            H := fillH p false z, Hinv := Hinv, delta := Blocks.zero, deltaAff := Blocks.zero } := by
          intro k l; exact (fillH_br p false z k l).trans (hw k l)
        exact fun k l => WF_evaluateKKT (p := p) (b := false) hz2 k l
      · have hz2 : WF { z' with
            H := fillH p false z', Hinv := Hinv, delta := Blocks.zero, deltaAff := Blocks.zero } := by
          intro k l; exact (fillH_br p false z' k l).trans (hw' k l)
        exact fun k l => WF_evaluateKKT (p := p) (b := false) hz2 k l

theorem solve_sim_wf (E : Eigen N K α) (p : QP N M K α) (prm : QPParams α) (st st' : IPState N M K α)
    (hr : WF st) (hr' : WF st') (hg : prm.initialGuessMethod = .userProvided → st.v = st'.v) :
    observe (solve E p prm st) = observe (solve E p prm st') := by
  unfold solve
  cases checkParams prm with
  | error e => rfl
  | ok _ =>
    simp only
    rcases initialGuess_sim E p prm.initialGuessMethod hr hr' hg with
      ⟨e, a, a', h1, h2⟩ | ⟨a, a', h1, h2, hs⟩
    · simp [h1, h2, observe]
    · simp only [h1, h2]
      have hv2 : (evaluateKKT p true a).v = (evaluateKKT p true a').v := by
        rw [evaluateKKT_v', evaluateKKT_v', hs.v]
      have hm : initialMu prm (evaluateKKT p true a) = initialMu prm (evaluateKKT p true a') := by
        unfold initialMu computeMu; rw [hv2]
      rw [hm]
      exact solveLoop_sim E p prm _ _ _ _ _ ⟨hv2, WF_evaluateKKT hs.w, WF_evaluateKKT hs.w'⟩
        (evaluateKKT_sim p hs.v)

/-- **C19** (any arithmetic). Let two solver objects have been set up for the same problem and then used in
arbitrary, different ways. With a built-in initial guess (or when their variables agree), `Solve` on them
is indistinguishable: the same exception, or the same outputs and the same variables. -/
theorem C19_no_leak (E : Eigen N K α) (p : QP N M K α) (prm : QPParams α) (st st' : IPState N M K α)
    (hr : Reachable E p st) (hr' : Reachable E p st')
    (hg : prm.initialGuessMethod = .userProvided → st.v = st'.v) :
    observe (solve E p prm st) = observe (solve E p prm st') :=
  solve_sim_wf E p prm st st' hr.wf hr'.wf hg

/-- In particular a second call to `Solve` repeats the first. -/
theorem C19_repeat (E : Eigen N K α) (p : QP N M K α) (prm : QPParams α) (st : IPState N M K α)
    (hr : Reachable E p st) (hg : prm.initialGuessMethod ≠ .userProvided)
    (r : IPState N M K α × QPOutputs α) (h : solve E p prm st = .ok r) :
    observe (solve E p prm r.1) = .ok (r.1.v, r.2) := by
  rw [C19_no_leak E p prm r.1 st (.solved hr h) hr (fun he => absurd he hg), h]
  rfl

/-- Two objects with different histories exist (and differ). -/
example : Reachable exactEigen demoQP (setupState demoJunk) ∧
    ∃ r, solve exactEigen demoQP QPParams.default (setupState demoJunk) = .ok r ∧
      Reachable exactEigen demoQP r.1 := by
  obtain ⟨r, hr⟩ := demo_returns QPParams.default default_valid (by simp [QPParams.default])
  exact ⟨.setup _, r, hr, .solved (.setup _) hr⟩

end MiniOpt.Props
