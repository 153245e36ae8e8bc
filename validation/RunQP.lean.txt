import Verif.FloatInst
set_option autoImplicit false
open MiniOpt

def okS : Bool → String := fun b => if b then "PASS" else "FAIL"
def vec {n : Nat} (l : List Float) : Fin n → Float := let a := l.toArray; fun i => a[i.val]!
def toL {n : Nat} (f : Fin n → Float) : List Float := List.ofFn f
def near (a b : List Float) (t : Float) : Bool := a.length == b.length && (List.zip a b).all fun (x, y) => (x - y).abs ≤ t
def junkIP (N M K : Nat) : IPState N M K Float :=
  let j : Blocks N M K Float := ⟨fun _ => 7, fun _ => 7, fun _ => 7, fun _ => 7⟩
  ⟨j, j, fun _ => 7, fun _ _ => 7, fun _ _ => 7, j, j⟩

def mkEnv {D : Nat} (n : Nat) (p : Problem D Float) (ret : Option ((Fin n → Float) → (Fin D → Float) → Float → (Fin n → Float)) := none) : NLS.Env n D Float :=
  { p := p, retraction := ret, callback := none, E := eigenF D p.K, NE := nsEigenF, eigenvalues := fun _ _ => 0,
    freshIP := junkIP D p.M p.K, freshNS := ⟨fun _ => 7⟩ }
def obj0 {n D : Nat} (env : NLS.Env n D Float) : env.Obj :=
  { qp := ⟨fun _ _ => 7, fun _ => 7, fun _ _ => 7, fun _ => 7, fun i => env.p.ineq.get i⟩, solver := .ip (junkIP _ _ _), vars := fun _ => 7, cand := fun _ => 7, dx := fun _ => 7, steps := [], state := .attemptingRestoreLM }

def qpIters (o : NLSOutputs Float) : Nat := o.iterations.foldl (fun s it => s + match it.qpOutputs with | .interiorPoint q => q.iterations.length | .nullSpace _ => 1) 0
def failedLS (o : NLSOutputs Float) : Nat := o.iterations.foldl (fun s it => if it.stepResult = .maxIterations then s+1 else s) 0
def lsSteps (o : NLSOutputs Float) : Nat := o.iterations.foldl (fun s it => s + it.lineSearchSteps.length) 0
def tstr (t : NLSTermination) : String := toString (repr t)

-- residual from list functions
def mkRes (dim P : Nat) (idx : List Int) (val : Array Float → Array Float) (jac : Array Float → Array (Array Float)) : Residual Float :=
  { dim := dim, P := P, index := fun l => idx[l.val]!, value := fun x => let v := val (Array.ofFn x); fun i => v[i.val]!,
    valueJ := fun x => let v := val (Array.ofFn x); fun i => v[i.val]!,
    jac := fun x => let v := jac (Array.ofFn x); fun i j => (v[i.val]!)[j.val]! }

def rosen : Residual Float := mkRes 2 2 [0,1]
  (fun x => #[1.0 - x[0]!, 10.0 * (x[1]! - x[0]! * x[0]!)])
  (fun x => #[#[-1.0, 0.0], #[-2.0 * x[0]! * 10.0, 10.0]])
def rosen6 : Residual Float := mkRes 10 6 [0,1,2,3,4,5]
  (fun x => Id.run do
    let mut o := #[]
    for i in [0:5] do
      o := o.push (1.0 - x[i]!)
      o := o.push (10.0 * (x[i+1]! - x[i]! * x[i]!))
    return o)
  (fun x => Id.run do
    let mut o := #[]
    for i in [0:5] do
      o := o.push ((Array.replicate 6 0.0).set! i (-1.0))
      o := o.push (((Array.replicate 6 0.0).set! i (-2.0 * x[i]! * 10.0)).set! (i+1) 10.0)
    return o)
def himm1 : Residual Float := mkRes 1 2 [0,1] (fun x => #[x[0]!*x[0]! + x[1]! - 11]) (fun x => #[#[2.0 * x[0]!, 1.0]])
def himm2 : Residual Float := mkRes 1 2 [0,1] (fun x => #[x[0]! + x[1]!*x[1]! - 7]) (fun x => #[#[1.0, 2.0 * x[1]!]])
def sphere (n : Nat) : Residual Float := mkRes n n ((List.range n).map fun i => (i : Int)) id
  (fun _ => mat n n fun i j => if i = j then 1 else 0)
def prodE (i j : Int) (v : Float) : Residual Float := mkRes 1 2 [i,j] (fun x => #[x[0]! * x[1]! - v]) (fun x => #[#[x[1]!, x[0]!]])

structure Stat where
  pass : Nat := 0
  total : Nat := 0
  nn : Nat := 0
  nqp : Nat := 0
  nfail : Nat := 0
  ls : Nat := 0
  terms : List (String × Nat) := []
  msgs : List String := []
def bump (l : List (String × Nat)) (s : String) : List (String × Nat) :=
  if l.any (·.1 == s) then l.map fun (a, k) => if a == s then (a, k+1) else (a, k) else l ++ [(s, 1)]

def runAll {D : Nat} (name : String) (p : Problem D Float) (prm : NLSParams Float) (guesses : List (List Float))
    (check : NLSOutputs Float → List Float → Bool)
    (ret : Option ((Fin D → Float) → (Fin D → Float) → Float → (Fin D → Float)) := none) : IO Unit := do
  let env := mkEnv D p ret
  let mut o := obj0 env
  let mut st : Stat := {}
  for g in guesses do
    match NLS.solve env prm (vec g) o with
    | .error (f, o') =>
      o := o'
      st := { st with total := st.total + 1, msgs := st.msgs ++ [s!"{g}: fault {repr f}"] }
    | .ok (o', ou, _) =>
      o := o'
      let ok := check ou (toL o'.vars)
      let msg := s!"{g}: {tstr ou.termination} x={toL o'.vars} its={ou.iterations.length} qp={qpIters ou}"
      st := { st with total := st.total + 1, pass := st.pass + (if ok then 1 else 0) }
      st := { st with nn := st.nn + ou.iterations.length, nqp := st.nqp + ou.numQPIterations, nfail := st.nfail + ou.numFailedLineSearches }
      st := { st with ls := st.ls + ou.numLineSearchSteps, terms := bump st.terms (tstr ou.termination) }
      if !ok then st := { st with msgs := st.msgs ++ [msg] }
  (← IO.getStdout).flush
  IO.println s!"{name}: {st.pass}/{st.total} nls={st.nn} qp={st.nqp} failedLS={st.nfail} ls={st.ls} {st.terms}"
  for m in st.msgs.take 5 do IO.println ("   " ++ m)

def dflt : NLSParams Float := NLSParams.default
def guess9 : List (List Float) := [[-5,-3],[10,8],[-20,3],[0,-5],[4,0],[100,50],[-35,40],[1000,-50],[0.8,-0.3]]
def prod (xs ys : List Float) : List (List Float) := xs.flatMap fun x => ys.map fun y => [x, y]
partial def rangeF (a b s : Float) : List Float := if a ≤ b then a :: rangeF (a + s) b s else []
def satTol (t : NLSTermination) : Bool := t.indicatesSatisfiedTol

-- pseudo random
def lcg (s : Nat) : Nat := (6364136223846793005 * s + 1442695040888963407) % 2^64
def rnd (s : Nat) : Float := Float.ofNat (s / 2^11) / Float.ofNat (2^53)


def mkQP (N K : Nat) (G : List (List Float)) (c : List Float) (A : List (List Float)) (b : List Float) (cs : List (Nat × Float × Float)) (h : 0 < N) : QP N cs.length K Float :=
  ⟨fun i j => (G[i.val]!)[j.val]!, fun i => c[i.val]!, fun k j => (A[k.val]!)[j.val]!, fun k => b[k.val]!,
    fun i => ⟨⟨cs[i].1 % N, Nat.mod_lt _ h⟩, cs[i].2.1, cs[i].2.2⟩⟩
def diag (l : List Float) : List (List Float) := (List.range l.length).map fun i => (List.range l.length).map fun j => if i == j then l[i]! else 0
def quad (roots : List (Float × Float)) : List (List Float) × List Float := (diag (roots.map fun (a, _) => a*a), roots.map fun (a,b) => -2.0*a*b)
def runQP {N M K : Nat} (name : String) (p : QP N M K Float) (prm : QPParams Float) (chk : IPState N M K Float → QPOutputs Float → Bool) : IO Nat := do
  match IP.solve (eigenF N K) p prm (IP.setupState (junkIP N M K)) with
  | .ok (st, o) =>
    if name ≠ "" || !chk st o then
      IO.println s!"{name}: {okS (chk st o)} {repr o.termination} iters={o.iterations.length} x={toL st.v.x} s={toL st.v.s}"
    (← IO.getStdout).flush
    return o.iterations.length
  | .error e => IO.println s!"{name}: fault {repr e.1}"; return 0
def ge (i : Nat) (v : Float) : Nat × Float × Float := (i, 1, -v)
def le (i : Nat) (v : Float) : Nat × Float × Float := (i, -1, v)
def sat (o : QPOutputs Float) : Bool := match o.termination with | .satisfiedKktTol => true | _ => false
def main : IO Unit := do
  let d : QPParams Float := QPParams.default
  let d1 := { d with terminationKktTol := 1e-9, sigma := 0.1, initialMu := 0.1 }
  let _ ← runQP "SingleIneq" (mkQP 1 0 [[1]] [-5] [] [] [le 0 4] (by omega)) d1 fun st o => sat o && near (toL st.v.x) [4] 1e-6 && near (toL st.v.s) [0] 1e-6 && (toL st.v.z).all (· > 1.0-1e-6)
  for m in [InitialGuessMethod.naive, .solveEqualityConstrained] do
    let d2 := { d1 with terminationKktTol := 1e-12, initialGuessMethod := m }
    let _ ← runQP "IneqActive" (mkQP 2 0 (diag [1,16]) [-2,64] [] [] [le 0 1, ge 1 (-3)] (by omega)) d2 fun st o => sat o && near (toL st.v.x) [1,-3] 1e-6 && near (toL st.v.s) [0,0] 1e-6
    let _ ← runQP "IneqPartial" (mkQP 3 0 (diag [1,1,0.25]) [-1,3,-2.5] [] [] [ge 1 (-2), ge 0 (-3.5)] (by omega)) d2 fun st o => sat o && near (toL st.v.x) [1,-2,10] 1e-6 && (toL st.v.s)[0]!.abs < 1e-6 && (toL st.v.z)[1]!.abs < 1e-6
    let (G, c) := quad [(1,1),(5,-10),(10,2)]
    let _ ← runQP "IneqAndEq" (mkQP 3 1 G c [[0,0,1]] [-2] [le 0 0.5, ge 1 (-1)] (by omega)) d2 fun st o => sat o && near (toL st.v.x) [0.5,-1,2] 1e-6 && near (toL st.v.s) [0,0] 1e-6
  let (G, c) := quad [(1,0.5),(3,2),(-4,5),(0.25,4)]
  let _ ← runQP "EqOnly" (mkQP 4 2 G c [[1,0,-0.5,0],[0,0.25,0,1]] [3,-2] [] (by omega)) { d with terminationKktTol := 1e-6, maxIterations := 1 } fun st o =>
    sat o && (let x := toL st.v.x; near [x[0]! - 0.5*x[2]! + 3, 0.25*x[1]! + x[3]! - 2] [0,0] 1e-9)
  let (G, c) := quad [(1,-0.5),(1,-0.25),(1,1)]
  let _ ← runQP "EqFull" (mkQP 3 3 G c (diag [1,1,1]) [-1,-2,-3] [] (by omega)) { d with terminationKktTol := 1e-6, maxIterations := 1 } fun st o =>
    sat o && near (toL st.v.x) [1,2,3] 1e-9 && (toL st.v.y).all (· > 0.01)
