import Verif.Props.NLSNullSpace
import Verif.Lemmas.NLSSim
import Verif.Props.QPIterates

/-!
# C49: bounds across the nonlinear solve (exact arithmetic)

Concrete runs meeting the hypotheses of the theorems below: `Props/NLSExamples.lean` (and the examples
beside each theorem).
-/

set_option autoImplicit false

namespace MiniOpt.Props

open MiniOpt.Spec MiniOpt.NLS

variable {n D : Nat}

theorem linearize_con {p : Problem D ℝ} {x : Fin n → ℝ} {lam : ℝ} {qp0 qp : QPData D p.M p.K ℝ}
    {pre : Errors ℝ} (h : linearize p x lam qp0 = .ok (qp, pre)) :
    (∀ c ∈ p.ineq, 0 ≤ c.var ∧ c.var < (n : Int)) ∧
    ∀ i : Fin p.M, qp.con i = ⟨(p.ineq.get i).var, (p.ineq.get i).a, boundAt (p.ineq.get i) x⟩ := by
  unfold linearize at h
  cases hc : linCosts x p.costs (fun _ (_ : Fin D) => (0 : ℝ)) (fun _ => 0) 0 with
  | error e => simp only [hc] at h; cases h
  | ok q =>
    simp only [hc] at h
    cases he : linEqs x p.eqs 0 (fun (_ : Fin p.K) (_ : Fin D) => (0 : ℝ)) (fun _ => 0) 0 with
    | error e => simp only [he] at h; cases h
    | ok e =>
      simp only [he] at h
      cases hs : shiftLoop x p.ineq with
      | error e => simp only [hs] at h; cases h
      | ok con =>
        simp only [hs] at h
        cases h
        exact (shiftLoop_ok x p.ineq con).mp hs

theorem typed_ineqVal {p : Problem D ℝ} {x : Fin D → ℝ} {q : QPData D p.M p.K ℝ}
    (hc : ∀ i, 0 ≤ (q.con i).var ∧ (q.con i).var < (D : Int)) (m : Fin p.M) (c : Ineq ℝ)
    (hcon : q.con m = ⟨c.var, c.a, boundAt c x⟩) (y : Fin D → ℝ) :
    ineqVal (q.typed hc) y m = boundAt c (fun i => x i + y i) := by
  have hv := hc m
  have hv' : 0 ≤ c.var ∧ c.var < (D : Int) := by rw [hcon] at hv; exact hv
  have e1 : ((q.typed hc).con m).var = ⟨c.var.toNat, by omega⟩ := by
    apply Fin.ext
    show (q.con m).var.toNat = _
    rw [hcon]
  have e2 : ((q.typed hc).con m).a = c.a := by
    show (q.con m).a = _
    rw [hcon]
  have e3 : ((q.typed hc).con m).b = boundAt c x := by
    show (q.con m).b = _
    rw [hcon]
  unfold ineqVal
  rw [e1, e2, e3]
  unfold boundAt
  rw [dif_pos hv', dif_pos hv']
  ring

/-- **C49** (one iteration). Whatever the residuals and their Jacobians are: if the box is not empty, the direction of
an iteration keeps every bound up to `1e-9` when followed to the end, so every accepted step keeps `a x + b` at or
above the smaller of its previous value and `-1e-9`. -/
theorem C49_iteration (env : Env D D ℝ) (hr : env.retraction = none)
    (hbox : ∃ w : Fin D → ℝ, ∀ c ∈ env.p.ineq, 0 ≤ boundAt c w) (prm : NLSParams ℝ) (x0 : Fin D → ℝ)
    (o o' : env.Obj) (out : NLSOutputs ℝ) (calls : List (NLSIteration ℝ))
    (h : solve env prm x0 o = .ok (o', out, calls)) (k : Nat) (hk : k < out.iterations.length) (a b : env.Obj)
    (ha : After env prm x0 o k a) (hb : After env prm x0 o (k + 1) b) (c : Ineq ℝ) (hc : c ∈ env.p.ineq) :
    -1e-9 < boundAt c (fun i => a.vars i + b.dx i) ∧
    (boundAt c b.vars = boundAt c a.vars ∨ ∃ t, 0 < t ∧ t ≤ 1 ∧ b.vars = fun i => a.vars i + b.dx i * t) ∧
    min (boundAt c a.vars) (-1e-9) ≤ boundAt c b.vars := by
  obtain ⟨it, hit⟩ : ∃ it, out.iterations[k]? = some it := ⟨_, List.getElem?_eq_getElem hk⟩
  have hmem := List.mem_of_getElem? hit
  obtain ⟨h1, -, h3⟩ := C38_direction env prm x0 o o' out calls h k it hit a b ha hb
  obtain ⟨hidx, hcon⟩ := linearize_con h1
  obtain ⟨hv0, hvn⟩ := hidx c hc
  have hval : ∀ y : Fin D → ℝ, boundAt c y = c.a * y ⟨c.var.toNat, by omega⟩ + c.b := by
    intro y; unfold boundAt; rw [dif_pos ⟨hv0, hvn⟩]
  have hdir : -1e-9 < boundAt c (fun i => a.vars i + b.dx i) := by
    rcases h3 with ⟨hc', s, s', q, hs, -, hdx⟩ | ⟨s, s', hs, hq, -⟩
    · obtain ⟨w, hw⟩ := hbox
      have hbx : ∃ w, ∀ m, 0 ≤ ineqVal (b.qp.typed hc') w m := by
        refine ⟨fun i => w i - a.vars i, fun m => ?_⟩
        have hm := hw (env.p.ineq.get m) (List.get_mem _ m)
        rw [typed_ineqVal hc' m _ (hcon m)]
        simpa using hm
      obtain ⟨-, st0, hg0, -⟩ := IP.solve_ok hs
      obtain ⟨i, hi⟩ := List.mem_iff_get.mp hc
      have := (C23_bounds_respected env.E (b.qp.typed hc') (qpParams env.p prm) _ st0 _ (NLS.qpParams_guess env.p prm) hbx hg0
        hs i).1
      rw [typed_ineqVal hc' i _ (hcon i), hi] at this
      rw [hdx]
      exact this
    · have := (C45_which_solver env prm x0 o o' out calls h it hmem).2
        (by rintro ⟨hn, _⟩; rw [hn] at hc; cases hc)
      obtain ⟨q, hq'⟩ := this
      rw [hq] at hq'; cases hq'
  obtain ⟨hm1, hm2⟩ := C38_variables_move env prm x0 o o' out calls h k it hit a b ha hb
  by_cases hs : it.stepResult = .success
  · obtain ⟨st, hst, hmv⟩ := hm1 hs
    obtain ⟨_, _, hpos, _, hle⟩ := C40_alphas env prm x0 o o' out calls h it hmem
    have hstm := List.mem_of_getLast? hst
    unfold Moves at hmv
    rw [hr] at hmv
    obtain ⟨hn, hvars⟩ := hmv
    have hvars' : b.vars = fun i => a.vars i + b.dx i * st.alpha := hvars
    have ht0 : 0 < st.alpha := (hpos st hstm).1
    have ht1 : st.alpha ≤ 1 := (hpos st hstm).2
    refine ⟨hdir, Or.inr ⟨st.alpha, ht0, ht1, hvars'⟩, ?_⟩
    rw [hvars']
    rw [hval] at hdir ⊢
    rw [hval]
    have h0 := min_le_left (c.a * a.vars ⟨c.var.toNat, by omega⟩ + c.b) (-1e-9)
    have h9 := min_le_right (c.a * a.vars ⟨c.var.toNat, by omega⟩ + c.b) (-1e-9)
    set mn := min (c.a * a.vars ⟨c.var.toNat, by omega⟩ + c.b) (-1e-9)
    have e : c.a * (a.vars ⟨c.var.toNat, by omega⟩ + b.dx ⟨c.var.toNat, by omega⟩ * st.alpha) + c.b
        = (1 - st.alpha) * (c.a * a.vars ⟨c.var.toNat, by omega⟩ + c.b)
          + st.alpha * (c.a * (a.vars ⟨c.var.toNat, by omega⟩ + b.dx ⟨c.var.toNat, by omega⟩) + c.b) := by ring
    rw [e]
    have g1 : (1 - st.alpha) * mn ≤ (1 - st.alpha) * (c.a * a.vars ⟨c.var.toNat, by omega⟩ + c.b) :=
      mul_le_mul_of_nonneg_left h0 (by linarith)
    have g2 : st.alpha * mn ≤ st.alpha * (c.a * (a.vars ⟨c.var.toNat, by omega⟩ + b.dx ⟨c.var.toNat, by omega⟩) + c.b) :=
      mul_le_mul_of_nonneg_left (le_trans h9 hdir.le) ht0.le
    linarith
  · have := hm2 hs
    rw [this]
    exact ⟨hdir, Or.inl rfl, min_le_left _ _⟩

/-- **C49**. With the default retraction and a non-empty box, after every iteration and at the end every bound
`a x + b` is at least the smaller of its value at the start and `-1e-9`. In particular a start that keeps the bounds
up to `1e-9` is never left. -/
theorem C49_bounds (env : Env D D ℝ) (hr : env.retraction = none)
    (hbox : ∃ w : Fin D → ℝ, ∀ c ∈ env.p.ineq, 0 ≤ boundAt c w) (prm : NLSParams ℝ) (x0 : Fin D → ℝ)
    (o o' : env.Obj) (out : NLSOutputs ℝ) (calls : List (NLSIteration ℝ))
    (h : solve env prm x0 o = .ok (o', out, calls)) (c : Ineq ℝ) (hc : c ∈ env.p.ineq) :
    (∀ k, k ≤ out.iterations.length → ∀ ob, After env prm x0 o k ob →
      min (boundAt c x0) (-1e-9) ≤ boundAt c ob.vars) ∧
    min (boundAt c x0) (-1e-9) ≤ boundAt c o'.vars ∧
    (-1e-9 ≤ boundAt c x0 → -1e-9 ≤ boundAt c o'.vars) := by
  obtain ⟨hex, hfirst, hlast⟩ := C38_after env prm x0 o o' out calls h
  have key : ∀ k, k ≤ out.iterations.length → ∀ ob, After env prm x0 o k ob →
      min (boundAt c x0) (-1e-9) ≤ boundAt c ob.vars := by
    intro k
    induction k with
    | zero =>
      intro _ ob hob
      rw [hfirst ob hob]; exact min_le_left _ _
    | succ k ih =>
      intro hk ob hob
      obtain ⟨a, ha, _⟩ := hex k (by omega)
      have h1 := ih (by omega) a ha
      have h2 := (C49_iteration env hr hbox prm x0 o o' out calls h k (by omega) a ob ha hob c hc).2.2
      exact le_trans (le_min h1 (min_le_right _ _)) h2
  obtain ⟨e, he, _⟩ := hex _ le_rfl
  have hfin := key _ le_rfl e he
  rw [hlast e he] at hfin
  exact ⟨key, hfin, fun h0 => by rwa [min_eq_right h0] at hfin⟩

end MiniOpt.Props
