import Verif.Spec.SymmetrySpec
import Verif.Props.Coordinates
import Verif.Props.Flip
import Verif.Props.Stopping

/-! A symmetric problem started symmetric stays symmetric; unread variables stay where they are (C136, exact arithmetic). -/

set_option autoImplicit false

namespace MiniOpt.Props

open MiniOpt MiniOpt.Spec MiniOpt.NLS

variable {n D : Nat}

/-- **C136** (symmetry, no bounds). If the problem is the same in the coordinates `x = T y` and the start is a fixed point of `T`, then so
is the result. -/
theorem C136_symmetric (env : Env n D ℝ) (T : (Fin n → ℝ) → Fin n → ℝ) (A : (Fin n → ℝ) → (Fin D → ℝ) ≃ₗ[ℝ] (Fin D → ℝ))
    (hsame : SameProblem env env T A) (hE : LDLTContract env.E) (hN : NSContract env.NE) (hp : WellPosed env.p n)
    (hi : env.p.ineq = []) (prm : NLSParams ℝ) (x0 : Fin n → ℝ) (hx : T x0 = x0) (o o1 : env.Obj) (out : NLSOutputs ℝ)
    (calls : List (NLSIteration ℝ)) (h : solve env prm x0 o = .ok (o1, out, calls))
    (hreg : env.p.eqs = [] → ∀ k it a, out.iterations[k]? = some it → After env prm x0 o k a →
      0 < it.lambda ∨ RegularAt env.p a.vars)
    (hlam : Isometric A ∨ ∀ it ∈ out.iterations, it.lambda ≤ 0) : T o1.vars = o1.vars := by
  have h0 : solve env prm (T x0) o = .ok (o1, out, calls) := by rw [hx]; exact h
  refine (C101_coordinates env env T A hsame hE hE hN hN hp hp hi hi prm x0 o o1 o o1 out out calls calls h0 h ?_ hlam).1.symm
  rw [hx]
  exact hreg

/-- **C136** (symmetry, with bounds): for exchanges of variables, reflections and their combinations. -/
theorem C136_symmetric_bounds (env : Env D D ℝ) (σ : Fin D ≃ Fin D) (s : Fin D → Bool) (t : Fin D → ℝ)
    (hsame : SameProblem env env (flipMap σ s t) (fun _ => flip σ s))
    (hin : (env.p.ineq.map (flippedBound σ s t)).Perm env.p.ineq) (hne : env.p.ineq ≠ []) (hE : LDLTContract env.E)
    (hp : WellPosed env.p D) (hbox : BoundsConsistent env.p D) (prm : NLSParams ℝ) (x0 : Fin D → ℝ) (hx : flipMap σ s t x0 = x0)
    (o o1 : env.Obj) (out : NLSOutputs ℝ) (calls : List (NLSIteration ℝ)) (h : solve env prm x0 o = .ok (o1, out, calls))
    (hreg : ∀ k it a, out.iterations[k]? = some it → After env prm x0 o k a →
      (0 < it.lambda ∨ RegularAt env.p a.vars) ∧ EqualitiesIndependentAt env.p a.vars) :
    flipMap σ s t o1.vars = o1.vars := by
  have h0 : solve env prm (flipMap σ s t x0) o = .ok (o1, out, calls) := by rw [hx]; exact h
  refine (C129_flip env env σ s t hsame hin hne hE hE hp hp hbox prm x0 o o1 o o1 out out calls calls h0 h ?_).1.symm
  rw [hx]
  exact hreg

/-- The reflection of variable `i` about the value `v`. -/
noncomputable def reflectAt (i : Fin D) (v : ℝ) : (Fin D → ℝ) → Fin D → ℝ :=
  flipMap (.refl _) (fun j => decide (j = i)) fun j => if j = i then 2 * v else 0

theorem reflectAt_self (i : Fin D) (v : ℝ) (y : Fin D → ℝ) : reflectAt i v y i = 2 * v - y i := by
  unfold reflectAt flipMap
  simp [sgn]; ring

theorem reflectAt_ne (i j : Fin D) (hj : j ≠ i) (v : ℝ) (y : Fin D → ℝ) : reflectAt i v y j = y j := by
  unfold reflectAt flipMap
  simp [sgn, hj]

theorem unread_params {r : Residual ℝ} {i : Fin D} (h : ∀ l, r.index l ≠ (i.val : Int)) (v : ℝ) (y : Fin D → ℝ) :
    params r (reflectAt i v y) = params r y := by
  funext l
  unfold params
  by_cases hl : 0 ≤ r.index l ∧ r.index l < (D : Int)
  · rw [dif_pos hl, dif_pos hl]
    refine reflectAt_ne i _ (fun e => h l ?_) v y
    have := congrArg Fin.val e
    simp only at this
    omega
  · rw [dif_neg hl, dif_neg hl]

theorem unread_same {r : Residual ℝ} {i : Fin D} (h : ∀ l, r.index l ≠ (i.val : Int)) (v : ℝ) :
    SameResidual D (reflectAt i v) (fun _ => flip (.refl _) fun j => decide (j = i)) r r := by
  constructor
  · intro y
    unfold valueAt
    rw [unread_params h]
  · intro y e
    congr 1
    funext k
    unfold slopeAt
    refine Finset.sum_congr rfl fun j _ => ?_
    unfold jacAt
    rw [unread_params h]
    by_cases hj : j = i
    · subst hj
      have : fullJac r.index (r.jac (params r y)) D k j = 0 := by
        unfold fullJac
        exact Finset.sum_eq_zero fun l _ => if_neg (h l)
      rw [this, zero_mul, zero_mul]
    · show _ = _ * (sgn (decide (j = i)) * e j)
      simp [sgn, hj]

theorem unread_problem {env : Env D D ℝ} (hR : env.retraction = none) (hcb : SameCallback env.callback env.callback) {i : Fin D}
    (hu : Unread env.p i) (v : ℝ) :
    SameProblem env env (reflectAt i v) (fun _ => flip (.refl _) fun j => decide (j = i)) := by
  refine ⟨⟨_, List.forall₂_same.mpr fun r hr => unread_same (hu.residuals r (.inl hr)) v, .refl _⟩,
    ⟨_, List.forall₂_same.mpr fun r hr => unread_same (hu.residuals r (.inr hr)) v, .refl _⟩, ?_, hcb⟩
  intro y e a x z hx hz
  unfold retract at hx hz
  rw [hR] at hx hz
  simp only [dite_true, Fin.cast_eq_self, Except.ok.injEq] at hx hz
  subst hx hz
  funext j
  by_cases hj : j = i
  · subst hj
    rw [reflectAt_self, reflectAt_self]
    show 2 * v - y j + sgn (decide (j = j)) * e j * a = _
    simp [sgn]; ring
  · rw [reflectAt_ne i j hj, reflectAt_ne i j hj]
    show y j + sgn (decide (j = i)) * e j * a = _
    simp [sgn, hj]

theorem unread_flip_iso (i : Fin D) :
    Isometric (D := D) (m := D) fun _ => flip (.refl _) fun j => decide (j = i) := by
  intro y e
  refine Finset.sum_congr rfl fun j _ => ?_
  show (sgn (decide (j = i)) * e j) ^ 2 = e j ^ 2
  rw [mul_pow, sq, sgn_sq, one_mul]

theorem unread_fixed (i : Fin D) (x0 : Fin D → ℝ) : reflectAt i (x0 i) x0 = x0 := by
  funext j
  by_cases hj : j = i
  · subst hj; rw [reflectAt_self]; ring
  · exact reflectAt_ne i j hj _ _

/-- **C136** (unread variables, no bounds). A variable that no residual reads keeps its initial value, if without equality constraints
every iteration is damped. -/
theorem C136_unread (env : Env D D ℝ) (hR : env.retraction = none) (hcb : SameCallback env.callback env.callback) (i : Fin D)
    (hu : Unread env.p i) (hE : LDLTContract env.E) (hN : NSContract env.NE) (hp : WellPosed env.p D) (hi : env.p.ineq = [])
    (prm : NLSParams ℝ) (x0 : Fin D → ℝ) (o o1 : env.Obj) (out : NLSOutputs ℝ) (calls : List (NLSIteration ℝ))
    (h : solve env prm x0 o = .ok (o1, out, calls)) (hlam : env.p.eqs = [] → ∀ it ∈ out.iterations, 0 < it.lambda) :
    o1.vars i = x0 i := by
  have key := C136_symmetric env _ _ (unread_problem hR hcb hu (x0 i)) hE hN hp hi prm x0 (unread_fixed i x0) o o1 out calls h
    (fun he k it a hit _ => .inl (hlam he it (List.mem_of_getElem? hit))) (.inl (unread_flip_iso i))
  have := congrFun key i
  rw [reflectAt_self] at this
  linarith

/-- **C136** (unread variables, with bounds on other variables). -/
theorem C136_unread_bounds (env : Env D D ℝ) (hR : env.retraction = none) (hcb : SameCallback env.callback env.callback) (i : Fin D)
    (hu : Unread env.p i) (hE : LDLTContract env.E) (hp : WellPosed env.p D) (hne : env.p.ineq ≠ [])
    (hbox : BoundsConsistent env.p D) (prm : NLSParams ℝ) (x0 : Fin D → ℝ) (o o1 : env.Obj) (out : NLSOutputs ℝ)
    (calls : List (NLSIteration ℝ)) (h : solve env prm x0 o = .ok (o1, out, calls))
    (hlam : ∀ it ∈ out.iterations, 0 < it.lambda)
    (hind : ∀ k it a, out.iterations[k]? = some it → After env prm x0 o k a → EqualitiesIndependentAt env.p a.vars) :
    o1.vars i = x0 i := by
  have hin : env.p.ineq.map (flippedBound (.refl _) (fun j => decide (j = i)) fun j => if j = i then 2 * x0 i else 0) = env.p.ineq := by
    refine (List.map_congr_left fun c hc => ?_).trans (List.map_id _)
    unfold flippedBound
    by_cases hv : 0 ≤ c.var ∧ c.var < (D : Int)
    · rw [dif_pos hv]
      have hj : (⟨c.var.toNat, by omega⟩ : Fin D) ≠ i := by
        intro e
        have := congrArg Fin.val e
        simp only at this
        exact hu.bounds c hc (by omega)
      obtain ⟨cv, ca, cb⟩ := c
      simp [sgn, hj, hv.1]
    · rw [dif_neg hv]; rfl
  have key := C136_symmetric_bounds env _ _ _ (unread_problem hR hcb hu (x0 i)) (by rw [hin]) hne hE hp hbox prm x0
    (unread_fixed i x0) o o1 out calls h
    (fun k it a hit ha => ⟨.inl (hlam it (List.mem_of_getElem? hit)), hind k it a hit ha⟩)
  have := congrFun key i
  have e := reflectAt_self i (x0 i) o1.vars
  unfold reflectAt at e
  rw [e] at this
  linarith

/-- What the first `k` iterations of a solve log is the beginning of what the solve logs. -/
theorem cut_short {env : Env n D ℝ} {prm : NLSParams ℝ} {x0 : Fin n → ℝ} {o o1 a : env.Obj} {out out' : NLSOutputs ℝ}
    {calls calls' : List (NLSIteration ℝ)} {k : Nat} (h : solve env prm x0 o = .ok (o1, out, calls))
    (h' : solve env { prm with maxIterations := k } x0 o = .ok (a, out', calls')) (hk : out'.iterations.length = k)
    (hle : k ≤ out.iterations.length) {j : Nat} {it : NLSIteration ℝ} (hj : out'.iterations[j]? = some it) :
    out.iterations[j]? = some it := by
  have hlt := (List.getElem?_eq_some_iff.mp hj).1
  rw [(C132_prefix env prm { prm with maxIterations := k } rfl rfl x0 o o1 a out out' calls calls' h h').1 j (by omega) hlt, hj]

/-- **C136** (symmetry, no bounds, every iteration). -/
theorem C136_symmetric_throughout (env : Env n D ℝ) (T : (Fin n → ℝ) → Fin n → ℝ)
    (A : (Fin n → ℝ) → (Fin D → ℝ) ≃ₗ[ℝ] (Fin D → ℝ)) (hsame : SameProblem env env T A) (hE : LDLTContract env.E)
    (hN : NSContract env.NE) (hp : WellPosed env.p n) (hi : env.p.ineq = []) (prm : NLSParams ℝ) (x0 : Fin n → ℝ) (hx : T x0 = x0)
    (o o1 : env.Obj) (out : NLSOutputs ℝ) (calls : List (NLSIteration ℝ)) (h : solve env prm x0 o = .ok (o1, out, calls))
    (hreg : env.p.eqs = [] → ∀ k it a, out.iterations[k]? = some it → After env prm x0 o k a →
      0 < it.lambda ∨ RegularAt env.p a.vars)
    (hlam : Isometric A ∨ ∀ it ∈ out.iterations, it.lambda ≤ 0) :
    ∀ k a, k ≤ out.iterations.length → After env prm x0 o k a → T a.vars = a.vars := by
  rintro k a hk ⟨out', calls', h', hl⟩
  refine C136_symmetric env T A hsame hE hN hp hi { prm with maxIterations := k } x0 hx o a out' calls' h' ?_ ?_
  · intro he j it b hj hb
    exact hreg he j it b (cut_short h h' hl hk hj) hb
  · refine hlam.imp_right fun q it hit => ?_
    obtain ⟨j, hj⟩ := List.mem_iff_getElem?.mp hit
    exact q it (List.mem_of_getElem? (cut_short h h' hl hk hj))

/-- **C136** (symmetry, with bounds, every iteration). -/
theorem C136_symmetric_bounds_throughout (env : Env D D ℝ) (σ : Fin D ≃ Fin D) (s : Fin D → Bool) (t : Fin D → ℝ)
    (hsame : SameProblem env env (flipMap σ s t) (fun _ => flip σ s))
    (hin : (env.p.ineq.map (flippedBound σ s t)).Perm env.p.ineq) (hne : env.p.ineq ≠ []) (hE : LDLTContract env.E)
    (hp : WellPosed env.p D) (hbox : BoundsConsistent env.p D) (prm : NLSParams ℝ) (x0 : Fin D → ℝ) (hx : flipMap σ s t x0 = x0)
    (o o1 : env.Obj) (out : NLSOutputs ℝ) (calls : List (NLSIteration ℝ)) (h : solve env prm x0 o = .ok (o1, out, calls))
    (hreg : ∀ k it a, out.iterations[k]? = some it → After env prm x0 o k a →
      (0 < it.lambda ∨ RegularAt env.p a.vars) ∧ EqualitiesIndependentAt env.p a.vars) :
    ∀ k a, k ≤ out.iterations.length → After env prm x0 o k a → flipMap σ s t a.vars = a.vars := by
  rintro k a hk ⟨out', calls', h', hl⟩
  refine C136_symmetric_bounds env σ s t hsame hin hne hE hp hbox { prm with maxIterations := k } x0 hx o a out' calls' h' ?_
  intro j it b hj hb
  exact hreg j it b (cut_short h h' hl hk hj) hb

/-- **C136** (unread variables, no bounds, every iteration). -/
theorem C136_unread_throughout (env : Env D D ℝ) (hR : env.retraction = none) (hcb : SameCallback env.callback env.callback) (i : Fin D)
    (hu : Unread env.p i) (hE : LDLTContract env.E) (hN : NSContract env.NE) (hp : WellPosed env.p D) (hi : env.p.ineq = [])
    (prm : NLSParams ℝ) (x0 : Fin D → ℝ) (o o1 : env.Obj) (out : NLSOutputs ℝ) (calls : List (NLSIteration ℝ))
    (h : solve env prm x0 o = .ok (o1, out, calls)) (hlam : env.p.eqs = [] → ∀ it ∈ out.iterations, 0 < it.lambda) :
    ∀ k a, k ≤ out.iterations.length → After env prm x0 o k a → a.vars i = x0 i := by
  rintro k a hk ⟨out', calls', h', hl⟩
  refine C136_unread env hR hcb i hu hE hN hp hi { prm with maxIterations := k } x0 o a out' calls' h' fun he it hit => ?_
  obtain ⟨j, hj⟩ := List.mem_iff_getElem?.mp hit
  exact hlam he it (List.mem_of_getElem? (cut_short h h' hl hk hj))

/-- **C136** (unread variables, with bounds on other variables, every iteration). -/
theorem C136_unread_bounds_throughout (env : Env D D ℝ) (hR : env.retraction = none)
    (hcb : SameCallback env.callback env.callback) (i : Fin D) (hu : Unread env.p i) (hE : LDLTContract env.E)
    (hp : WellPosed env.p D) (hne : env.p.ineq ≠ []) (hbox : BoundsConsistent env.p D) (prm : NLSParams ℝ) (x0 : Fin D → ℝ)
    (o o1 : env.Obj) (out : NLSOutputs ℝ) (calls : List (NLSIteration ℝ)) (h : solve env prm x0 o = .ok (o1, out, calls))
    (hlam : ∀ it ∈ out.iterations, 0 < it.lambda)
    (hind : ∀ k it a, out.iterations[k]? = some it → After env prm x0 o k a → EqualitiesIndependentAt env.p a.vars) :
    ∀ k a, k ≤ out.iterations.length → After env prm x0 o k a → a.vars i = x0 i := by
  rintro k a hk ⟨out', calls', h', hl⟩
  refine C136_unread_bounds env hR hcb i hu hE hp hne hbox { prm with maxIterations := k } x0 o a out' calls' h' ?_ ?_
  · intro it hit
    obtain ⟨j, hj⟩ := List.mem_iff_getElem?.mp hit
    exact hlam it (List.mem_of_getElem? (cut_short h h' hl hk hj))
  · intro j it b hj hb
    exact hind j it b (cut_short h h' hl hk hj) hb

end MiniOpt.Props
