import Verif.FloatInst
set_option autoImplicit false
open MiniOpt

def okS : Bool → String := fun b => if b then "PASS" else "FAIL"
def vec {n : Nat} (l : List Float) : Fin n → Float := let a := l.toArray; fun i => a[i.val]!
def toL {n : Nat} (f : Fin n → Float) : List Float := List.ofFn f
def near (a b : List Float) (t : Float) : Bool := a.length == b.length && (List.zip a b).all fun (x, y) => (x - y).abs ≤ t
def junkIP (N M K : Nat) : IPState N M K Float :=
  let j : Blocks N M K Float := ⟨fun _ => 7, fun _ => 7, fun _ => 7, fun _ => 7⟩
  ⟨j, j, fun _ => 7, fun _ _ => 7, fun _ _ => 7, j, j⟩

def mkEnv {D : Nat} (n : Nat) (p : Problem D Float) (ret : Option ((Fin n → Float) → (Fin D → Float) → Float → (Fin n → Float)) := none) : NLS.Env n D Float :=
  { p := p, retraction := ret, callback := none, E := eigenF D p.K, NE := nsEigenF, eigenvalues := fun _ _ => 0,
    freshIP := junkIP D p.M p.K, freshNS := ⟨fun _ => 7⟩ }
def obj0 {n D : Nat} (env : NLS.Env n D Float) : env.Obj :=
  { qp := ⟨fun _ _ => 7, fun _ => 7, fun _ _ => 7, fun _ => 7, fun i => env.p.ineq.get i⟩, solver := .ip (junkIP _ _ _), vars := fun _ => 7, cand := fun _ => 7, dx := fun _ => 7, steps := [], state := .attemptingRestoreLM }

def qpIters (o : NLSOutputs Float) : Nat := o.iterations.foldl (fun s it => s + match it.qpOutputs with | .interiorPoint q => q.iterations.length | .nullSpace _ => 1) 0
def failedLS (o : NLSOutputs Float) : Nat := o.iterations.foldl (fun s it => if it.stepResult = .maxIterations then s+1 else s) 0
def lsSteps (o : NLSOutputs Float) : Nat := o.iterations.foldl (fun s it => s + it.lineSearchSteps.length) 0
def tstr (t : NLSTermination) : String := toString (repr t)

-- residual from list functions
def mkRes (dim P : Nat) (idx : List Int) (val : Array Float → Array Float) (jac : Array Float → Array (Array Float)) : Residual Float :=
  { dim := dim, P := P, index := fun l => idx[l.val]!, value := fun x => let v := val (Array.ofFn x); fun i => v[i.val]!,
    valueJ := fun x => let v := val (Array.ofFn x); fun i => v[i.val]!,
    jac := fun x => let v := jac (Array.ofFn x); fun i j => (v[i.val]!)[j.val]! }

def rosen : Residual Float := mkRes 2 2 [0,1]
  (fun x => #[1.0 - x[0]!, 10.0 * (x[1]! - x[0]! * x[0]!)])
  (fun x => #[#[-1.0, 0.0], #[-2.0 * x[0]! * 10.0, 10.0]])
def rosen6 : Residual Float := mkRes 10 6 [0,1,2,3,4,5]
  (fun x => Id.run do
    let mut o := #[]
    for i in [0:5] do
      o := o.push (1.0 - x[i]!)
      o := o.push (10.0 * (x[i+1]! - x[i]! * x[i]!))
    return o)
  (fun x => Id.run do
    let mut o := #[]
    for i in [0:5] do
      o := o.push ((Array.replicate 6 0.0).set! i (-1.0))
      o := o.push (((Array.replicate 6 0.0).set! i (-2.0 * x[i]! * 10.0)).set! (i+1) 10.0)
    return o)
def himm1 : Residual Float := mkRes 1 2 [0,1] (fun x => #[x[0]!*x[0]! + x[1]! - 11]) (fun x => #[#[2.0 * x[0]!, 1.0]])
def himm2 : Residual Float := mkRes 1 2 [0,1] (fun x => #[x[0]! + x[1]!*x[1]! - 7]) (fun x => #[#[1.0, 2.0 * x[1]!]])
def sphere (n : Nat) : Residual Float := mkRes n n ((List.range n).map fun i => (i : Int)) id
  (fun _ => mat n n fun i j => if i = j then 1 else 0)
def prodE (i j : Int) (v : Float) : Residual Float := mkRes 1 2 [i,j] (fun x => #[x[0]! * x[1]! - v]) (fun x => #[#[x[1]!, x[0]!]])

structure Stat where
  pass : Nat := 0
  total : Nat := 0
  nn : Nat := 0
  nqp : Nat := 0
  nfail : Nat := 0
  ls : Nat := 0
  terms : List (String × Nat) := []
  msgs : List String := []
def bump (l : List (String × Nat)) (s : String) : List (String × Nat) :=
  if l.any (·.1 == s) then l.map fun (a, k) => if a == s then (a, k+1) else (a, k) else l ++ [(s, 1)]

def runAll {D : Nat} (name : String) (p : Problem D Float) (prm : NLSParams Float) (guesses : List (List Float))
    (check : NLSOutputs Float → List Float → Bool)
    (ret : Option ((Fin D → Float) → (Fin D → Float) → Float → (Fin D → Float)) := none) : IO Unit := do
  let env := mkEnv D p ret
  let mut o := obj0 env
  let mut st : Stat := {}
  for g in guesses do
    match NLS.solve env prm (vec g) o with
    | .error (f, o') =>
      o := o'
      st := { st with total := st.total + 1, msgs := st.msgs ++ [s!"{g}: fault {repr f}"] }
    | .ok (o', ou, _) =>
      o := o'
      let ok := check ou (toL o'.vars)
      let msg := s!"{g}: {tstr ou.termination} x={toL o'.vars} its={ou.iterations.length} qp={qpIters ou}"
      st := { st with total := st.total + 1, pass := st.pass + (if ok then 1 else 0) }
      st := { st with nn := st.nn + ou.iterations.length, nqp := st.nqp + ou.numQPIterations, nfail := st.nfail + ou.numFailedLineSearches }
      st := { st with ls := st.ls + ou.numLineSearchSteps, terms := bump st.terms (tstr ou.termination) }
      if !ok then st := { st with msgs := st.msgs ++ [msg] }
  (← IO.getStdout).flush
  IO.println s!"{name}: {st.pass}/{st.total} nls={st.nn} qp={st.nqp} failedLS={st.nfail} ls={st.ls} {st.terms}"
  for m in st.msgs.take 5 do IO.println ("   " ++ m)

def dflt : NLSParams Float := NLSParams.default
def guess9 : List (List Float) := [[-5,-3],[10,8],[-20,3],[0,-5],[4,0],[100,50],[-35,40],[1000,-50],[0.8,-0.3]]
def prod (xs ys : List Float) : List (List Float) := xs.flatMap fun x => ys.map fun y => [x, y]
partial def rangeF (a b s : Float) : List Float := if a ≤ b then a :: rangeF (a + s) b s else []
def satTol (t : NLSTermination) : Bool := t.indicatesSatisfiedTol

-- pseudo random
def lcg (s : Nat) : Nat := (6364136223846793005 * s + 1442695040888963407) % 2^64
def rnd (s : Nat) : Float := Float.ofNat (s / 2^11) / Float.ofNat (2^53)

def main : IO Unit := do
  runAll (D := 2) "Rosenbrock" ⟨[rosen], [], []⟩ { dflt with maxIterations := 5, maxQPIterations := 1 } guess9
    fun o x => o.termination = .satisfiedAbsoluteTol && o.numQPIterations == o.iterations.length && near x [1,1] 1e-6
  runAll (D := 2) "RosenbrockLM" ⟨[rosen], [], []⟩ { dflt with maxIterations := 10, maxQPIterations := 1, absoluteFirstDerivativeTol := 1e-12, maxLineSearchIterations := 0 } guess9
    fun o x => o.termination = .satisfiedAbsoluteTol && o.numQPIterations == o.iterations.length && near x [1,1] 1e-6
  runAll (D := 2) "InequalityRosenbrock" ⟨[rosen], [varGe 0 1.2, varLe 1 0.5], []⟩ { dflt with maxIterations := 10, maxQPIterations := 10 }
    [[12,-5],[100,-20],[1423,-400],[-20,10],[-120,35],[-50,0.5]]
    fun o x => o.termination ≠ .maxIterations && o.termination ≠ .maxLambda && near x [1.2,0.5] 1e-6
  runAll (D := 6) "Rosenbrock6D" ⟨[rosen6], [varGe 0 2.3, varLe 1 (-1.2), varGe 2 3.0, varLe 3 (-2.5)], []⟩
    { dflt with maxIterations := 30, maxQPIterations := 30, relativeExitTol := 1e-6, absoluteFirstDerivativeTol := 5e-6, terminationKktTol := 1e-6, maxLambda := 10 }
    [[10.5,-8,50,-14,4,-0.6],[100,-50,30,-100,150,-400]]
    fun o x => satTol o.termination && near x [2.3,-1.2,3.0,-2.5,6.19802,6.19802*6.19802] 1e-5
  let hp := { dflt with maxIterations := 20, maxQPIterations := 10, relativeExitTol := 1e-12, absoluteFirstDerivativeTol := 1e-8, terminationKktTol := 1e-6 }
  let sols : List (List Float) := [[3,2],[-2.805118,3.131312],[-3.779310,-3.283186],[3.584428,-1.848126]]
  runAll (D := 2) "Himmelblau" ⟨[himm1, himm2], [varGe 0 (-5), varLe 0 5, varGe 1 (-5), varLe 1 5], []⟩ hp
    (prod (rangeF (-4.5) 4.5 0.3) (rangeF (-4.5) 4.5 0.3))
    fun o x => satTol o.termination && sols.any fun s => near x s 5e-5
  runAll (D := 2) "HimmelblauQuadrant" ⟨[himm1, himm2], [varGe 0 0.1, varLe 0 5, varGe 1 0.1, varLe 1 5], []⟩ hp
    (prod (rangeF 0.2 4.8 0.2) (rangeF 0.2 4.8 0.2))
    fun o x => satTol o.termination && near x [3,2] 5e-5
  let mut s := 7
  let mut gs : List (List Float) := []
  for _ in [0:100] do
    let mut g : List Float := []
    for _ in [0:6] do
      s := lcg s
      g := g ++ [60.0 * rnd s - 30.0]
    gs := gs ++ [g]
  runAll (D := 6) "Sphere" ⟨[sphere 6], [], [prodE 0 1 4, prodE 2 3 9]⟩
    { dflt with maxIterations := 100, maxQPIterations := 1, relativeExitTol := 1e-12, absoluteFirstDerivativeTol := 1e-9, terminationKktTol := 1e-6, lambdaInitial := 0.001 } gs
    fun o x => satTol o.termination && o.numFailedLineSearches == 0 && [([2,2,3,3,0,0]:List Float),[-2,-2,3,3,0,0],[2,2,-3,-3,0,0],[-2,-2,-3,-3,0,0]].any fun s => near x s 5e-5
