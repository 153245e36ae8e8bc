import Verif.FloatInst
set_option autoImplicit false
open MiniOpt

def okS : Bool → String := fun b => if b then "PASS" else "FAIL"
def vec {n : Nat} (l : List Float) : Fin n → Float := let a := l.toArray; fun i => a[i.val]!
def toL {n : Nat} (f : Fin n → Float) : List Float := List.ofFn f
def near (a b : List Float) (t : Float) : Bool := a.length == b.length && (List.zip a b).all fun (x, y) => (x - y).abs ≤ t
def junkIP (N M K : Nat) : IPState N M K Float :=
  let j : Blocks N M K Float := ⟨fun _ => 7, fun _ => 7, fun _ => 7, fun _ => 7⟩
  ⟨j, j, fun _ => 7, fun _ _ => 7, fun _ _ => 7, j, j⟩

def mkEnv {D : Nat} (n : Nat) (p : Problem D Float) (ret : Option ((Fin n → Float) → (Fin D → Float) → Float → (Fin n → Float)) := none) : NLS.Env n D Float :=
  { p := p, retraction := ret, callback := none, E := eigenF D p.K, NE := nsEigenF, eigenvalues := fun _ _ => 0,
    freshIP := junkIP D p.M p.K, freshNS := ⟨fun _ => 7⟩ }
def obj0 {n D : Nat} (env : NLS.Env n D Float) : env.Obj :=
  { qp := ⟨fun _ _ => 7, fun _ => 7, fun _ _ => 7, fun _ => 7, fun i => env.p.ineq.get i⟩, solver := .ip (junkIP _ _ _), vars := fun _ => 7, cand := fun _ => 7, dx := fun _ => 7, steps := [], state := .attemptingRestoreLM }

def qpIters (o : NLSOutputs Float) : Nat := o.iterations.foldl (fun s it => s + match it.qpOutputs with | .interiorPoint q => q.iterations.length | .nullSpace _ => 1) 0
def failedLS (o : NLSOutputs Float) : Nat := o.iterations.foldl (fun s it => if it.stepResult = .maxIterations then s+1 else s) 0
def lsSteps (o : NLSOutputs Float) : Nat := o.iterations.foldl (fun s it => s + it.lineSearchSteps.length) 0
def tstr (t : NLSTermination) : String := toString (repr t)

-- residual from list functions
def mkRes (dim P : Nat) (idx : List Int) (val : Array Float → Array Float) (jac : Array Float → Array (Array Float)) : Residual Float :=
  { dim := dim, P := P, index := fun l => idx[l.val]!, value := fun x => (memoV (let v := val (Array.ofFn x); fun i => v[i.val]!)).f,
    valueJ := fun x => let v := val (Array.ofFn x); fun i => v[i.val]!,
    jac := fun x => let v := jac (Array.ofFn x); fun i j => (v[i.val]!)[j.val]! }

def rosen : Residual Float := mkRes 2 2 [0,1]
  (fun x => #[1.0 - x[0]!, 10.0 * (x[1]! - x[0]! * x[0]!)])
  (fun x => #[#[-1.0, 0.0], #[-2.0 * x[0]! * 10.0, 10.0]])
def rosen6 : Residual Float := mkRes 10 6 [0,1,2,3,4,5]
  (fun x => Id.run do
    let mut o := #[]
    for i in [0:5] do
      o := o.push (1.0 - x[i]!)
      o := o.push (10.0 * (x[i+1]! - x[i]! * x[i]!))
    return o)
  (fun x => Id.run do
    let mut o := #[]
    for i in [0:5] do
      o := o.push ((Array.replicate 6 0.0).set! i (-1.0))
      o := o.push (((Array.replicate 6 0.0).set! i (-2.0 * x[i]! * 10.0)).set! (i+1) 10.0)
    return o)
def himm1 : Residual Float := mkRes 1 2 [0,1] (fun x => #[x[0]!*x[0]! + x[1]! - 11]) (fun x => #[#[2.0 * x[0]!, 1.0]])
def himm2 : Residual Float := mkRes 1 2 [0,1] (fun x => #[x[0]! + x[1]!*x[1]! - 7]) (fun x => #[#[1.0, 2.0 * x[1]!]])
def sphere (n : Nat) : Residual Float := mkRes n n ((List.range n).map fun i => (i : Int)) id
  (fun _ => mat n n fun i j => if i = j then 1 else 0)
def prodE (i j : Int) (v : Float) : Residual Float := mkRes 1 2 [i,j] (fun x => #[x[0]! * x[1]! - v]) (fun x => #[#[x[1]!, x[0]!]])

structure Stat where
  pass : Nat := 0
  total : Nat := 0
  nn : Nat := 0
  nqp : Nat := 0
  nfail : Nat := 0
  ls : Nat := 0
  terms : List (String × Nat) := []
  msgs : List String := []
def bump (l : List (String × Nat)) (s : String) : List (String × Nat) :=
  if l.any (·.1 == s) then l.map fun (a, k) => if a == s then (a, k+1) else (a, k) else l ++ [(s, 1)]

def runAll {D : Nat} (name : String) (p : Problem D Float) (prm : NLSParams Float) (guesses : List (List Float))
    (check : NLSOutputs Float → List Float → Bool)
    (ret : Option ((Fin D → Float) → (Fin D → Float) → Float → (Fin D → Float)) := none) : IO Unit := do
  let env := mkEnv D p ret
  let mut o := obj0 env
  let mut st : Stat := {}
  for g in guesses do
    match NLS.solve env prm (vec g) o with
    | .error (f, o') =>
      o := o'
      st := { st with total := st.total + 1, msgs := st.msgs ++ [s!"{g}: fault {repr f}"] }
    | .ok (o', ou, _) =>
      o := o'
      let ok := check ou (toL o'.vars)
      let msg := s!"{g}: {tstr ou.termination} x={toL o'.vars} its={ou.iterations.length} qp={qpIters ou}"
      st := { st with total := st.total + 1, pass := st.pass + (if ok then 1 else 0) }
      st := { st with nn := st.nn + ou.iterations.length, nqp := st.nqp + ou.numQPIterations, nfail := st.nfail + ou.numFailedLineSearches }
      st := { st with ls := st.ls + ou.numLineSearchSteps, terms := bump st.terms (tstr ou.termination) }
      if !ok then st := { st with msgs := st.msgs ++ [msg] }
  (← IO.getStdout).flush
  IO.println s!"{name}: {st.pass}/{st.total} nls={st.nn} qp={st.nqp} failedLS={st.nfail} ls={st.ls} {st.terms}"
  for m in st.msgs.take 5 do IO.println ("   " ++ m)

def dflt : NLSParams Float := NLSParams.default
def guess9 : List (List Float) := [[-5,-3],[10,8],[-20,3],[0,-5],[4,0],[100,50],[-35,40],[1000,-50],[0.8,-0.3]]
def prod (xs ys : List Float) : List (List Float) := xs.flatMap fun x => ys.map fun y => [x, y]
partial def rangeF (a b s : Float) : List Float := if a ≤ b then a :: rangeF (a + s) b s else []
def satTol (t : NLSTermination) : Bool := t.indicatesSatisfiedTol

-- pseudo random
def lcg (s : Nat) : Nat := (6364136223846793005 * s + 1442695040888963407) % 2^64
def rnd (s : Nat) : Float := Float.ofNat (s / 2^11) / Float.ofNat (2^53)


open MiniOpt.TC
def pi : Float := 3.141592653589793
def qAxis (k : Nat) (t : Float) : Quat Float :=
  let c := (t/2.0).cos; let s := (t/2.0).sin
  ⟨c, if k == 0 then s else 0, if k == 1 then s else 0, if k == 2 then s else 0⟩
def memo3 (v : V3 Float) : V3 Float := (memoV v).f
def extF : Ext Float where
  euler q := fun _ => 0.0 * q.w
  so3 a :=
    let qx := qAxis 0 (a 0); let qy := qAxis 1 (a 1); let qz := qAxis 2 (a 2)
    let R := (qx.mul qy).mul qz
    let cx := (qy.mul qz).conj.rotate ![1,0,0]
    let cy := qz.conj.rotate ![0,1,0]
    (R, fun i j => if j = 0 then cx i else if j = 1 then cy i else (if i = 2 then 1 else 0))
def link (t : List Float) (on : Bool) : Link Float :=
  match Link.make extF ⟨Quat.one, vec t⟩ (fun i => on && i.val == 2) (fun _ => 0) with
  | .ok l => l
  | .error _ => ⟨⟨Quat.one, vec t⟩, fun _ => false, fun _ => 0⟩
def chainEval (links : List (Link Float)) (x : Array Float) : Array Float × Array (Array Float) :=
  match TC.update extF x.toList (Chain.fresh links) with
  | .ok c => match c.translation with
    | .ok t => (Array.ofFn t, (Array.ofFn fun i : Fin 3 => (c.transD.map fun v => v i).toArray))
    | .error _ => (#[], #[])
  | .error _ => (#[], #[])
def modPi (x : Float) : Float :=
  let m := x - 2.0*pi*(x/(2.0*pi)).floor
  if m > pi then m - 2.0*pi else m
def retr {D : Nat} : (Fin D → Float) → (Fin D → Float) → Float → (Fin D → Float) := fun x dx a => fun i => modPi (x i + dx i * a)
def twoLinks := [link [0,0,0] true, link [0.4,0,0] true, link [0.4,0,0] false]
def yRes : Residual Float := mkRes 1 2 [0,1] (fun x => #[(chainEval twoLinks x).1[1]! - 0.6]) (fun x => #[(chainEval twoLinks x).2[1]!])
def xEq : Residual Float := mkRes 1 2 [0,1] (fun x => #[(chainEval twoLinks x).1[0]! - 0.45]) (fun x => #[(chainEval twoLinks x).2[0]!])
def front := [link [0,0.4,0] true, link [0.25,0,0] true, link [0.3,0,0] true, link [0.3,0,0] false]
def rear := [link [0,0.4,0] true, link [0,0,0] true, link [0.3,0,0] true, link [0.3,0,0] false]
def level : Residual Float := mkRes 1 1 [0] (fun x => #[0.1 * x[0]!]) (fun _ => #[#[0.1]])
def rearE : Residual Float := mkRes 1 3 [0,1,2] (fun x => #[(chainEval rear x).1[1]!]) (fun x => #[(chainEval rear x).2[1]!])
def frontE : Residual Float := mkRes 1 3 [0,3,4] (fun x => #[(chainEval front x).1[1]! - 0.05]) (fun x => #[(chainEval front x).2[1]!])
def moment : Residual Float := mkRes 1 5 [0,1,2,3,4]
  (fun x =>
    let r := (chainEval rear #[x[0]!,x[1]!,x[2]!]).1
    let f := (chainEval front #[x[0]!,x[3]!,x[4]!]).1
    #[(r[1]! - f[1]!) + (r[0]! - 0.15) + (f[0]! - 0.15) / 2.0])
  (fun x =>
    let r := (chainEval rear #[x[0]!,x[1]!,x[2]!]).2
    let f := (chainEval front #[x[0]!,x[3]!,x[4]!]).2
    let rr := fun (k : Nat) => (r[1]!)[k]! + (r[0]!)[k]!
    let ff := fun (k : Nat) => 0.5 * (f[0]!)[k]! - (f[1]!)[k]!
    #[#[rr 0 + ff 0, rr 1, rr 2, ff 1, ff 2]])

def main : IO Unit := do
  let p := { dflt with maxIterations := 50, maxQPIterations := 1, relativeExitTol := 1e-12, absoluteFirstDerivativeTol := 1e-10, absoluteExitTol := 1e-9, terminationKktTol := 1e-6, maxLineSearchIterations := 10, equalityPenaltyInitial := 0.01 }
  let p := { p with lineSearchStrategy := .armijoBacktrack, lambdaFailureInit := 0.001, armijoSearchTau := 0.5, lambdaInitial := 0.001, minLambda := 1e-9 }
  runAll (D := 2) "TwoAngle" ⟨[yRes], [], [xEq]⟩ p (prod (rangeF 0.1 (pi/2.0) 0.1) (rangeF (-pi/3.0) (pi/3.0) 0.1))
    (fun _ x => near ((chainEval twoLinks x.toArray).1.toList.take 2) [0.45,0.6] 5e-5) (some retr)
  runAll (D := 2) "TwoAngleIneq" ⟨[yRes], [varGe 1 0, varLe 1 pi], [xEq]⟩ { p with maxQPIterations := 10 } (prod (rangeF 0.1 (pi/2.0) 0.1) (rangeF 0.001 (pi/2.0-0.001) 0.1))
    (fun o x => near ((chainEval twoLinks x.toArray).1.toList.take 2) [0.45,0.6] 1e-3 && o.numLineSearchSteps < 100) (some retr)
  let p := { dflt with maxIterations := 100, maxQPIterations := 5, relativeExitTol := 1e-12, absoluteFirstDerivativeTol := 1e-10, absoluteExitTol := 1e-8, terminationKktTol := 1e-6, maxLineSearchIterations := 5 }
  let p := { p with lineSearchStrategy := .armijoBacktrack, lambdaFailureInit := 0.01, armijoSearchTau := 0.5, lambdaInitial := 0.001, minLambda := 1e-9 }
  runAll (D := 5) "DualActuator" ⟨[level, moment], [varGe 2 0, varLe 2 pi], [rearE, frontE]⟩ p
    [[pi/6.0,-pi/2.0,pi/6.0,-pi/2.0,pi/4.0],[-pi/4.0,-pi/4.0,pi/6.0,-pi/3.0,-pi/4.0],[-pi/3.0,-pi/2.0,0.001,-pi/2.0,0.0]]
    (fun o x => o.termination = .satisfiedAbsoluteTol && o.numLineSearchSteps < 36 &&
      [level, moment, rearE, frontE].all fun r => match r.quadraticError (vec x : Fin 5 → Float) with | .ok e => e.abs < 1e-8 | .error _ => false) (some retr)
