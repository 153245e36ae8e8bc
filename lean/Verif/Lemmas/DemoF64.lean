import Verif.Lemmas.F64More
import Verif.Model.Nonlinear

/-!
# Concrete runs in binary64

Small problems whose runs the kernel evaluates in IEEE double arithmetic; used only in examples.
-/

set_option autoImplicit false

namespace MiniOpt.DemoF64

open MiniOpt MiniOpt.NLS

/-- Left-to-right summation, and `x * x * x` for the cube. -/
def seqL : Libm := ⟨fun l => l.foldl F64.add (F64.zero false), fun x => F64.mul (F64.mul x x) x⟩

abbrev D64 := Dbl seqL

instance : DecidableEq D64 := inferInstanceAs (DecidableEq F64)

/-- A double from a rational. -/
def d (q : ℚ) : D64 := Scalar.lit q

/-- A scalar residual of variable 0. -/
def res1 (f df : D64 → D64) : Residual D64 where
  dim := 1
  P := 1
  index _ := 0
  value p _ := f (p 0)
  valueJ p _ := f (p 0)
  jac p _ _ := df (p 0)

def zero1 (M : Nat) : IPState 1 M 0 D64 :=
  ⟨.zero, .zero, fun _ => 0, fun _ _ => 0, fun _ _ => 0, .zero, .zero⟩

/-- `1/H` for a single unknown. -/
def inv1 : Eigen 1 0 D64 :=
  ⟨fun H => if Scalar.feq (H (.inl 0) (.inl 0)) 0 then none else some fun _ _ => 1 / H (.inl 0) (.inl 0)⟩

/-- One variable, one cost, no constraints. -/
def env1 (r : Residual D64) : Env 1 1 D64 where
  p := ⟨[r], [], []⟩
  retraction := none
  callback := none
  E := inv1
  NE := ⟨fun _ => ⟨fun _ _ => 0, fun _ _ => 0, id, 0⟩, fun _ v => v, fun _ => none⟩
  eigenvalues := fun G i => G i i
  freshIP := zero1 0
  freshNS := ⟨fun _ => 0⟩

def obj1 (r : Residual D64) : (env1 r).Obj :=
  ⟨⟨fun _ _ => 0, fun _ => 0, fun _ _ => 0, fun _ => 0, Fin.elim0⟩, .ip (zero1 0), fun _ => 0, fun _ => 0, fun _ => 0, [],
    .nominal⟩

def sqrt2 : Residual D64 := res1 (fun x => x * x - d 2) fun x => d 2 * x

def prm (k : Int) : NLSParams D64 := { (NLSParams.default : NLSParams D64) with maxIterations := k }

/-- Termination and step results of a run. -/
def summary (r : Residual D64) (prm : NLSParams D64) (x0 : D64) : Option (NLSTermination × List StepResult × D64) :=
  match solve (env1 r) prm (fun _ => x0) (obj1 r) with
  | .ok (o, out, _) => some (out.termination, out.iterations.map (·.stepResult), o.vars 0)
  | .error _ => none

theorem summary_run {r : Residual D64} {prm : NLSParams D64} {x0 : D64} {t : NLSTermination} {rs : List StepResult}
    (h : (summary r prm x0).map (fun s => (s.1, s.2.1)) = some (t, rs)) :
    ∃ o' out calls, solve (env1 r) prm (fun _ => x0) (obj1 r) = .ok (o', out, calls) ∧
      out.termination = t ∧ out.iterations.map (·.stepResult) = rs := by
  obtain ⟨⟨t', rs', x⟩, hs, he⟩ := Option.map_eq_some_iff.mp h
  unfold summary at hs
  split at hs
  · rename_i o out calls hs'
    simp only [Option.some.injEq, Prod.mk.injEq] at hs he
    exact ⟨o, out, calls, hs', by rw [hs.1, he.1], by rw [hs.2.1, he.2]⟩
  · cases hs

theorem run_sqrt2 : (summary sqrt2 (prm 20) (d 5)).map (fun s => (s.1, s.2.1)) =
    some (.satisfiedFirstOrderTol, [.success, .success, .success, .success, .firstOrderSatisfied]) := by
  decide +kernel

/-- `½ x² - x` with `x ≥ 2`. -/
def qp1 : QP 1 1 0 D64 := ⟨fun _ _ => 1, fun _ => d (-1), Fin.elim0, Fin.elim0, fun _ => ⟨0, 1, -d 2⟩⟩

def qpPrm (k : Int) (b : BarrierStrategy) : QPParams D64 :=
  { (QPParams.default : QPParams D64) with maxIterations := k, barrierStrategy := b }

def qpSummary (k : Int) (b : BarrierStrategy) : Option (QPTermination × Nat × D64 × D64 × D64) :=
  match IP.solve inv1 qp1 (qpPrm k b) (IP.setupState (zero1 1)) with
  | .ok (st, out) => some (out.termination, out.iterations.length, st.v.x 0, st.v.s 0, st.v.z 0)
  | .error _ => none


theorem run_qp : (qpSummary 10 .complementarity).map (fun s => (s.1, s.2.1)) = some (.satisfiedKktTol, 2) := by
  decide +kernel

theorem qp_run : ∃ r, IP.solve inv1 qp1 (qpPrm 10 .complementarity) (IP.setupState (zero1 1)) = .ok r ∧
    r.2.termination = .satisfiedKktTol := by
  obtain ⟨x, hs, he⟩ := Option.map_eq_some_iff.mp run_qp
  unfold qpSummary at hs
  split at hs
  · rename_i st out h
    simp only [Option.some.injEq] at hs
    exact ⟨_, h, by rw [← hs] at he; exact congrArg Prod.fst he⟩
  · cases hs

/-- One variable, one cost, one equality constraint, no inequality: the null-space solver is used, with a QR decomposition
that is exact for one variable. -/
def envEq (r e : Residual D64) : Env 1 1 D64 where
  p := { costs := [r], eqs := [e], ineq := [] }
  retraction := none
  callback := none
  E := ⟨fun _ => none⟩
  NE := ⟨fun {_ K} A => ⟨fun i j => if i = j then 1 else 0, fun i k => A k i, id, K⟩, fun R v k => v k / R k k,
    fun {m} _ => if m = 0 then some id else none⟩
  eigenvalues := fun G i => G i i
  freshIP := ⟨.zero, .zero, fun _ => 0, fun _ _ => 0, fun _ _ => 0, .zero, .zero⟩
  freshNS := ⟨fun _ => 0⟩

def objEq (r e : Residual D64) : (envEq r e).Obj :=
  ⟨⟨fun _ _ => 0, fun _ => 0, fun _ _ => 0, fun _ => 0, Fin.elim0⟩, .ns ⟨fun _ => 0⟩, fun _ => 0, fun _ => 0, fun _ => 0, [],
    .nominal⟩

/-- `½ (3 (x - 20))²` subject to `x² = 4`. -/
def pull : Residual D64 := res1 (fun x => d 3 * (x - d 20)) fun _ => d 3
def four : Residual D64 := res1 (fun x => x * x - d 4) fun x => d 2 * x

/-- From `x = 10` the cost rises on the way to the constraint, and the penalty is raised in every iteration. -/
theorem run_pull : ∃ o' out calls, solve (envEq pull four) (prm 3) (fun _ => d 10) (objEq pull four)
      = .ok (o', out, calls) ∧
    out.iterations.map (fun it => (it.stepResult, it.penalty)) =
      [(.success, d (7050385216648511 / 1125899906842624)), (.success, d (4626123651704911 / 562949953421312)),
        (.success, d (5845496905132835 / 562949953421312))] := by
  have h : (match solve (envEq pull four) (prm 3) (fun _ => d 10) (objEq pull four) with
    | .ok (_, out, _) => out.iterations.map (fun it => (it.stepResult, it.penalty))
    | .error _ => []) =
      [(.success, d (7050385216648511 / 1125899906842624)), (.success, d (4626123651704911 / 562949953421312)),
        (.success, d (5845496905132835 / 562949953421312))] := by decide +kernel
  split at h
  · rename_i o' out calls hs
    exact ⟨o', out, calls, hs, h⟩
  · simp at h

/-- `x - 3` with the wrong sign of the derivative. -/
def wrongSign : Residual D64 := res1 (fun x => x - d 3) fun _ => d (-1)

/-- Every step goes uphill: the damping is raised until it reaches its limit. -/
theorem run_wrong : (summary wrongSign { prm 10 with lineSearchStrategy := .armijoBacktrack } (d 5)).map
      (fun s => (s.1, s.2.1)) =
    some (.maxLambda, [.maxIterations, .maxIterations, .maxIterations, .maxIterations]) := by
  decide +kernel

end MiniOpt.DemoF64
