import Verif.Model.Nonlinear
import Verif.Model.FullSystem
import Verif.Model.TransformChains
set_option autoImplicit false
namespace MiniOpt

def ratToFloat (q : ℚ) : Float :=
  let n : Float := if q.num < 0 then - Float.ofNat q.num.natAbs else Float.ofNat q.num.natAbs
  n / Float.ofNat q.den

instance : Zero Float := ⟨0.0⟩
instance : One Float := ⟨1.0⟩

instance fscal : Scalar Float where
  zero := 0.0
  one := 1.0
  add := (· + ·)
  sub := (· - ·)
  mul := (· * ·)
  div := (· / ·)
  neg x := -x
  lt := (· < ·)
  le := (· ≤ ·)
  decLT a b := inferInstanceAs (Decidable (a < b))
  decLE a b := inferInstanceAs (Decidable (a ≤ b))
  feq a b := (a == b) = true
  decFeq a b := inferInstanceAs (Decidable ((a == b) = true))
  isFinite a := a.isFinite = true
  decFinite a := inferInstanceAs (Decidable (a.isFinite = true))
  abs := Float.abs
  sqrt := Float.sqrt
  cube x := Float.pow x 3.0
  lit := ratToFloat
  sum l := l.foldl (· + ·) 0.0

abbrev Mat := Array (Array Float)

def mat (n m : Nat) (f : Nat → Nat → Float) : Mat := Array.ofFn fun i : Fin n => Array.ofFn fun j : Fin m => f i j
def Mat.g (m : Mat) (i j : Nat) : Float := (m[i]!)[j]!

/-- Gauss-Jordan inverse with partial pivoting. -/
def inverse (n : Nat) (A0 : Mat) : Option Mat := Id.run do
  let mut A := A0
  let mut B := mat n n fun i j => if i = j then 1 else 0
  for c in [0:n] do
    let mut p := c
    for r in [c:n] do
      if (A.g r c).abs > (A.g p c).abs then p := r
    if !((A.g p c).abs > 0) then return none
    let t := A[c]!; A := A.set! c A[p]!; A := A.set! p t
    let t := B[c]!; B := B.set! c B[p]!; B := B.set! p t
    let d := A.g c c
    A := A.set! c (A[c]!.map (· / d)); B := B.set! c (B[c]!.map (· / d))
    for r in [0:n] do
      if r ≠ c then
        let f := A.g r c
        if f ≠ 0 then
          A := A.set! r (Array.zipWith (fun a b => a - f * b) A[r]! A[c]!)
          B := B.set! r (Array.zipWith (fun a b => a - f * b) B[r]! B[c]!)
  return some B

def redIdx {N K : Nat} : Red N K → Nat
  | .inl i => i
  | .inr k => N + k
def idxRed (N K : Nat) (i : Nat) : Option (Red N K) :=
  if h : i < N then some (.inl ⟨i, h⟩) else if h : i - N < K then some (.inr ⟨i - N, h⟩) else none

def eigenF (N K : Nat) : Eigen N K Float where
  ldltInverse H :=
    let m := mat (N + K) (N + K) fun i j => match idxRed N K i, idxRed N K j with
      | some a, some b => H a b
      | _, _ => 0
    match inverse (N + K) m with
    | none => none
    | some B => some fun a b => B.g (redIdx a) (redIdx b)

/-- Column-pivoted Householder QR of the n x K matrix `M`. -/
def qrF (n K : Nat) (M : Mat) : Mat × Mat × Array Nat × Nat := Id.run do
  let mut R := M
  let mut Q := mat n n fun i j => if i = j then 1 else 0
  let mut perm := Array.ofFn fun i : Fin K => i.val
  for c in [0:min n K] do
    -- pivot
    let colnorm := fun (R : Mat) (k : Nat) => (List.range n).foldl (fun s i => if i ≥ c then s + R.g i k * R.g i k else s) 0.0
    let mut p := c
    for k in [c:K] do
      if colnorm R k > colnorm R p then p := k
    if p ≠ c then
      R := R.map fun row => let t := row[c]!; (row.set! c row[p]!).set! p t
      let t := perm[c]!; perm := (perm.set! c perm[p]!).set! p t
    let nrm := (colnorm R c).sqrt
    if nrm > 0 then
      let x0 := R.g c c
      let alpha := if x0 > 0 then -nrm else nrm
      let v := Array.ofFn fun i : Fin n => if i.val < c then 0.0 else if i.val = c then R.g c c - alpha else R.g i c
      let vv := v.foldl (fun s a => s + a * a) 0.0
      if vv > 0 then
        -- R := (I - 2 v v^T/vv) R ; Q := Q (I - 2 v v^T / vv)
        let vR := Array.ofFn fun k : Fin K => (List.range n).foldl (fun s i => s + v[i]! * R.g i k) 0.0
        R := mat n K fun i k => R.g i k - 2 * v[i]! * vR[k]! / vv
        let Qv := Array.ofFn fun i : Fin n => (List.range n).foldl (fun s j => s + Q.g i j * v[j]!) 0.0
        Q := mat n n fun i j => Q.g i j - 2 * Qv[i]! * v[j]! / vv
  let mx := (List.range (min n K)).foldl (fun m i => if (R.g i i).abs > m then (R.g i i).abs else m) 0.0
  let rank := ((List.range (min n K)).filter fun i => (R.g i i).abs > mx * 2.220446049250313e-16 * Float.ofNat (min n K)).length
  return (Q, R, perm, rank)

def nsEigenF : NSEigen Float where
  qr {n K} A :=
    let r := qrF n K (mat n K fun i k => if h : i < n ∧ k < K then A ⟨k, h.2⟩ ⟨i, h.1⟩ else 0)
    { Q := fun i j => r.1.g i j, R := fun i k => r.2.1.g i k
      perm := fun k => if h : r.2.2.1[k.val]! < K then ⟨_, h⟩ else k
      rank := r.2.2.2 }
  triSolveTranspose {K} R b := Id.run do
    -- solve R^T y = b, R upper triangular
    let mut y : Array Float := Array.replicate K 0
    for hi : i in [0:K] do
      if h : i < K then
        let mut s := b ⟨i, h⟩
        for j in [0:i] do
          if hj : j < K then s := s - R ⟨j, hj⟩ ⟨i, h⟩ * y[j]!
        y := y.set! i (s / R ⟨i, h⟩ ⟨i, h⟩)
    let yy := y
    return fun i => yy[i.val]!
  llt {m} A := Id.run do
    let mut L := mat m m fun i j => if h : i < m ∧ j < m then A ⟨i, h.1⟩ ⟨j, h.2⟩ else 0
    for j in [0:m] do
      let mut d := L.g j j
      for k in [0:j] do d := d - L.g j k * L.g j k
      if !(d > 0) then return none
      let dd := d.sqrt
      L := L.set! j (L[j]!.set! j dd)
      for i in [j+1:m] do
        let mut s := L.g i j
        for k in [0:j] do s := s - L.g i k * L.g j k
        L := L.set! i (L[i]!.set! j (s / dd))
    let LL := L
    return some fun b => Id.run do
      let mut y := Array.ofFn b
      for i in [0:m] do
        let mut s := y[i]!
        for k in [0:i] do s := s - LL.g i k * y[k]!
        y := y.set! i (s / LL.g i i)
      for i' in [0:m] do
        let i := m - 1 - i'
        let mut s := y[i]!
        for k in [i+1:m] do s := s - LL.g k i * y[k]!
        y := y.set! i (s / LL.g i i)
      let yy := y
      return fun i => yy[i.val]!

end MiniOpt
