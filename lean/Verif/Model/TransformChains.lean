import Verif.Model.Scalar
import Mathlib.Data.Fin.VecNotation

/-!
# Transform chains (`/repo/test/transform_chains.{hpp,cc}`)

Poses, chains of poses with derivatives, and chains of actuators. Eigen's quaternions are modelled by their four
components, with the formulas of `Eigen/src/Geometry/Quaternion.h`; `math::Skew3`, `math::EulerAnglesFromSO3` and
`math::SO3FromEulerAngles` belong to the library `geometry_utils`, which is not in the repository: the first is the
usual cross product matrix, the other two are parameters.

A matrix of three rows and dynamically many columns is the list of its columns, or (where the code only uses blocks of
three columns) the list of its 3x3 blocks.
-/

set_option autoImplicit false

namespace MiniOpt.TC

variable {α : Type}

/-- `Eigen::Vector<double, 3>`. -/
abbrev V3 (α : Type) := Fin 3 → α
/-- `Eigen::Matrix<double, 3, 3>`, by rows. -/
abbrev M3 (α : Type) := Fin 3 → Fin 3 → α

/-- `Eigen::Quaternion<double>`. -/
structure Quat (α : Type) where
  w : α
  x : α
  y : α
  z : α
  deriving DecidableEq

/-- `struct Pose` (`transform_chains.hpp:24-59`). -/
structure Pose (α : Type) where
  rotation : Quat α
  translation : V3 α

section
variable [Scalar α]

/-- `Eigen::Quaternion::Identity()`. -/
def Quat.one : Quat α := ⟨1, 0, 0, 0⟩

/-- `Eigen::Quaternion::operator*` (quaternion product). -/
def Quat.mul (a b : Quat α) : Quat α where
  w := a.w * b.w - a.x * b.x - a.y * b.y - a.z * b.z
  x := a.w * b.x + a.x * b.w + a.y * b.z - a.z * b.y
  y := a.w * b.y + a.y * b.w + a.z * b.x - a.x * b.z
  z := a.w * b.z + a.z * b.w + a.x * b.y - a.y * b.x

/-- `Eigen::Quaternion::conjugate()`. -/
def Quat.conj (q : Quat α) : Quat α := ⟨q.w, -q.x, -q.y, -q.z⟩

/-- `Eigen::Quaternion::vec()`. -/
def Quat.vec (q : Quat α) : V3 α := ![q.x, q.y, q.z]

/-- `Eigen::Quaternion::squaredNorm()`. -/
def Quat.squaredNorm (q : Quat α) : α := Scalar.sum [q.x * q.x, q.y * q.y, q.z * q.z, q.w * q.w]

/-- `Eigen::Quaternion::inverse()`: the conjugate over the squared norm, or zero. -/
def Quat.inverse (q : Quat α) : Quat α :=
  let n2 := q.squaredNorm
  if 0 < n2 then ⟨q.w / n2, -q.x / n2, -q.y / n2, -q.z / n2⟩ else ⟨0, 0, 0, 0⟩

/-- `a.cross(b)`. -/
def cross (a b : V3 α) : V3 α := ![a 1 * b 2 - a 2 * b 1, a 2 * b 0 - a 0 * b 2, a 0 * b 1 - a 1 * b 0]

/-- Sum of vectors. -/
def vadd (a b : V3 α) : V3 α := fun i => a i + b i

/-- `Eigen::Quaternion::_transformVector`: `rotation * v`. -/
def Quat.rotate (q : Quat α) (v : V3 α) : V3 α :=
  let uv := cross q.vec v
  let uv2 := vadd uv uv
  let c := cross q.vec uv2
  fun i => v i + q.w * uv2 i + c i

/-- `Eigen::Quaternion::toRotationMatrix()`, `matrix()`. -/
def Quat.matrix (q : Quat α) : M3 α :=
  let tx := Scalar.lit 2 * q.x
  let ty := Scalar.lit 2 * q.y
  let tz := Scalar.lit 2 * q.z
  let twx := tx * q.w
  let twy := ty * q.w
  let twz := tz * q.w
  let txx := tx * q.x
  let txy := ty * q.x
  let txz := tz * q.x
  let tyy := ty * q.y
  let tyz := tz * q.y
  let tzz := tz * q.z
  ![![1 - (tyy + tzz), txy - twz, txz + twy],
    ![txy + twz, 1 - (txx + tzz), tyz - twx],
    ![txz - twy, tyz + twx, 1 - (txx + tyy)]]

/-- `math::Skew3(v)` (`geometry_utils/so3.hpp`, not in the repository). -/
def skew3 (v : V3 α) : M3 α := ![![0, -v 2, v 1], ![v 2, 0, -v 0], ![-v 1, v 0, 0]]

/-- Matrix product. -/
def mmul (A B : M3 α) : M3 α := fun i j => dot (A i) (fun k => B k j)

/-- Matrix times column. -/
def mvec (A : M3 α) (v : V3 α) : V3 α := matVec A v

/-- Column `j`. -/
def col (A : M3 α) (j : Fin 3) : V3 α := fun i => A i j

/-- `Matrix::Identity()`. -/
def ident : M3 α := fun i j => if i = j then 1 else 0

/-- `Pose()` (`transform_chains.hpp:30-32`). -/
def Pose.one : Pose α := ⟨.one, fun _ => 0⟩

/-- `Pose::operator*` on poses (`transform_chains.hpp:40-42`). -/
def Pose.mul (p q : Pose α) : Pose α :=
  ⟨p.rotation.mul q.rotation, vadd p.translation (p.rotation.rotate q.translation)⟩

/-- `Pose::Inverse` (`transform_chains.hpp:45-48`). -/
def Pose.inverse (p : Pose α) : Pose α :=
  let R := p.rotation.inverse
  ⟨R, R.rotate fun i => - p.translation i⟩

/-- `Pose::operator*` on a vector (`transform_chains.hpp:51-53`). -/
def Pose.apply (p : Pose α) (v : V3 α) : V3 α := vadd (p.rotation.rotate v) p.translation

/-- `Pose::ToMatrix` (`transform_chains.cc:13-15`). -/
def Pose.toMatrix (p : Pose α) : Fin 4 → Fin 4 → α :=
  let R := p.rotation.matrix
  let t := p.translation
  ![![R 0 0, R 0 1, R 0 2, t 0], ![R 1 0, R 1 1, R 1 2, t 1], ![R 2 0, R 2 1, R 2 2, t 2], ![0, 0, 0, 1]]

/-! ## Chains of poses -/

/-- `struct ChainComputationBuffer` (`transform_chains.hpp:79-101`). -/
structure Buffer (α : Type) where
  rotDRot : List (M3 α)
  transDRot : List (M3 α)
  transDTrans : List (M3 α)
  iREnd : List (Quat α)
  iTEnd : List (V3 α)

/-- An empty buffer, as constructed. -/
def Buffer.empty : Buffer α := ⟨[], [], [], [], []⟩

/-- `ChainComputationBuffer::start_T_end` (`transform_chains.cc:17-21`). -/
def Buffer.startTEnd (c : Buffer α) : Res (Pose α) :=
  match c.iREnd, c.iTEnd with
  | [], _ => .error (.assertion "!i_R_end.empty()")
  | _, [] => .error (.assertion "i_t_end.cols() > 0")
  | r :: _, t :: _ => .ok ⟨r, t⟩

/-- The loop computing `i_R_end`, right to left (`transform_chains.cc:37-42`): entry `i` from entry `i + 1`. -/
def rotationsToEnd : List (Pose α) → List (Quat α)
  | [] => [.one]
  | l :: ls =>
    match rotationsToEnd ls with
    | [] => []
    | r :: rs => l.rotation.mul r :: r :: rs

/-- The loop computing `i_t_end`, right to left (`transform_chains.cc:47-52`). -/
def translationsToEnd : List (Pose α) → List (V3 α)
  | [] => [fun _ => 0]
  | l :: ls =>
    match translationsToEnd ls with
    | [] => []
    | t :: ts => vadd (l.rotation.rotate t) l.translation :: t :: ts

/-- The loop computing `translation_D_translation`, left to right (`transform_chains.cc:56-61`); `s` is
`start_R_i`. -/
def startRotations : Quat α → List (Pose α) → List (M3 α)
  | _, [] => []
  | s, l :: ls => s.matrix :: startRotations (s.mul l.rotation) ls

/-- `ComputeChain` (`transform_chains.cc:23-82`). All buffers are overwritten, so the old contents do not appear. -/
def computeChain (links : List (Pose α)) : Buffer α :=
  match links with
  | [] => .empty
  | _ =>
    let iREnd := rotationsToEnd links
    let iTEnd := translationsToEnd links
    let tDt := startRotations .one links
    { iREnd := iREnd
      iTEnd := iTEnd
      transDTrans := tDt
      -- `transform_chains.cc:66-73`: block `i` from blocks `i + 1`; the last one is zero
      transDRot := List.zipWith (fun R t => mmul R (skew3 fun i => - t i)) tDt.tail iTEnd.tail ++ [fun _ _ => 0]
      -- `transform_chains.cc:76-81`
      rotDRot := ((iREnd.tail.take (links.length - 1)).map fun r => r.conj.matrix) ++ [ident] }

/-- `ComputeAllPoses` (`transform_chains.cc:84-92`). `front()` of an empty vector and `leftCols<1>()` of a matrix without
columns are undefined. -/
def computeAllPoses (c : Buffer α) : Res (List (Pose α)) :=
  match c.iREnd, c.iTEnd with
  | r :: _, t :: _ =>
    if c.iREnd.length ≤ c.iTEnd.length then
      .ok (List.zipWith (fun ri ti => Pose.mul ⟨r, t⟩ (Pose.inverse ⟨ri, ti⟩)) c.iREnd c.iTEnd)
    else .error (.ub "i_t_end.col(i)")
  | _, _ => .error (.ub "i_R_end.front()")

/-! ## Actuators -/

/-- The two functions of `geometry_utils/so3.hpp` that are not in the repository: `EulerAnglesFromSO3`, and
`SO3FromEulerAngles` in the order XYZ with its derivative `rotation_D_angles`. -/
structure Ext (α : Type) where
  euler : Quat α → V3 α
  so3 : V3 α → Quat α × M3 α

/-- `struct ActuatorLink` (`transform_chains.hpp:124-158`). -/
structure Link (α : Type) where
  pose : Pose α
  active : Fin 6 → Bool
  rotationXyz : V3 α

/-- `ActuatorLink::ActiveCount` (`transform_chains.cc:94-97`). -/
def Link.activeCount (l : Link α) : Nat := ((List.finRange 6).filter fun i => l.active i).length

/-- `ActuatorLink::ActiveRotationCount` (`transform_chains.cc:99-102`). -/
def Link.activeRotationCount (l : Link α) : Nat :=
  (l.active 0).toNat + (l.active 1).toNat + (l.active 2).toNat

/-- The constructor of `ActuatorLink` (`transform_chains.cc:104-118`). `rotation_xyz` is uninitialised if no rotation is
active: that value is `junk`. -/
def Link.make (ext : Ext α) (pose : Pose α) (mask : Fin 6 → Bool) (junk : V3 α) : Res (Link α) :=
  let l : Link α := ⟨pose, mask, junk⟩
  if 0 < l.activeRotationCount then
    let xyz : V3 α := fun i => - ext.euler pose.rotation.conj i
    let R := (ext.so3 xyz).1.matrix
    let R' := pose.rotation.matrix
    if ∀ i j, Scalar.abs (R i j - R' i j) < Scalar.lit (1 / 10 ^ 5) then .ok { l with rotationXyz := xyz }
    else .error (.assertion "Euler angle decomposition failed")
  else .ok l

/-- The loops of `Compute` that replace the active entries by parameters (`transform_chains.cc:131-136` with an
assertion, `transform_chains.cc:143-147` without): `bad` is the outcome of an index past the end. -/
def substitute (params : List α) (bad : Fault) : Nat → List (Bool × α) → Res (List α)
  | _, [] => .ok []
  | k, (true, _) :: rest =>
    match params[k]? with
    | none => .error bad
    | some v =>
      match substitute params bad (k + 1) rest with
      | .error e => .error e
      | .ok vs => .ok (v :: vs)
  | k, (false, d) :: rest =>
    match substitute params bad k rest with
    | .error e => .error e
    | .ok vs => .ok (d :: vs)

/-- Entry `i` of a list, as Eigen's `operator[]` on a vector known to be long enough. -/
def at3 (l : List α) (i : Nat) : α := (l[i]?).getD 0

/-- `ActuatorLink::Compute` (`transform_chains.cc:125-161`): the pose, and the columns written to `J_out`. The assertion on
`J_out.cols()` holds by construction at the only call (`transform_chains.cc:196-197`). -/
def Link.compute (ext : Ext α) (l : Link α) (params : List α) (position : Nat) : Res (Pose α × List (V3 α)) :=
  if l.activeRotationCount = 0 then
    match substitute params (.assertion "param_index < params.rows()") position
        [(l.active 3, l.pose.translation 0), (l.active 4, l.pose.translation 1), (l.active 5, l.pose.translation 2)] with
    | .error e => .error e
    | .ok t => .ok (⟨l.pose.rotation, ![at3 t 0, at3 t 1, at3 t 2]⟩, [])
  else
    match substitute params (.ub "params[param_index]") position
        [(l.active 0, l.rotationXyz 0), (l.active 1, l.rotationXyz 1), (l.active 2, l.rotationXyz 2),
          (l.active 3, l.pose.translation 0), (l.active 4, l.pose.translation 1), (l.active 5, l.pose.translation 2)] with
    | .error e => .error e
    | .ok u =>
      let rot := ext.so3 ![at3 u 0, at3 u 1, at3 u 2]
      let J := ((List.finRange 3).filter fun axis => l.active (axis.castLE (by omega))).map fun axis => col rot.2 axis
      .ok (⟨rot.1, ![at3 u 3, at3 u 4, at3 u 5]⟩, J)

/-- `struct ActuatorChain` (`transform_chains.hpp:162-209`). -/
structure Chain (α : Type) where
  links : List (Link α)
  poses : List (Pose α)
  rotD : List (V3 α)
  transD : List (V3 α)
  buf : Buffer α
  cached : List α

/-- A chain as constructed, with `links` assigned. -/
def Chain.fresh (links : List (Link α)) : Chain α := ⟨links, [], [], [], .empty, []⟩

/-- `ActuatorChain::TotalActive` (`transform_chains.cc:260-263`). -/
def totalActive (links : List (Link α)) : Nat := links.foldl (fun t l => t + l.activeCount) 0

/-- `ActuatorChain::ShouldUpdate` (`transform_chains.cc:248-258`). -/
def shouldUpdate (cached params : List α) : Bool :=
  if cached.length ≠ params.length then true
  else (List.zip cached params).any fun cp => decide (Scalar.lit (1 / 10 ^ 9) < Scalar.abs (cp.1 - cp.2))

/-- Assignment to the columns `pos ..` of a matrix; out of range is undefined. -/
def writeCols (buf : List (V3 α)) (pos : Nat) (cols : List (V3 α)) : Option (List (V3 α)) :=
  if pos + cols.length ≤ buf.length then some (buf.take pos ++ cols ++ buf.drop (pos + cols.length)) else none

/-- `pose_buffer_.resize(n)` (`transform_chains.cc:191`). -/
def resizePoses (n : Nat) (ps : List (Pose α)) : List (Pose α) := ps.take n ++ List.replicate (n - ps.length) .one

/-- The first loop of `Update` (`transform_chains.cc:192-199`), from link `i` at `position`. -/
def posesLoop (ext : Ext α) (params : List α) : List (Link α) → Nat → Nat → Chain α → Except (Fault × Chain α) (Chain α)
  | [], _, _, c => .ok c
  | l :: ls, i, position, c =>
    match l.compute ext params position with
    | .error e => .error (e, c)
    | .ok (p, J) =>
      match writeCols c.rotD position J with
      | none => .error (.ub "rotation_D_params_.middleCols", c)
      | some rotD =>
        posesLoop ext params ls (i + 1) (position + l.activeCount) { c with poses := c.poses.set i p, rotD := rotD }

/-- The active columns of `translation_D_translation` for one link (`transform_chains.cc:233-241`). -/
def activeTranslationCols (l : Link α) (B : M3 α) : List (V3 α) :=
  ((List.finRange 3).filter fun axis => l.active (axis.natAdd 3)).map fun axis => col B axis

/-- The second loop of `Update` (`transform_chains.cc:205-245`), from link `i` at `position`. -/
def jacobianLoop : List (Link α) → Nat → Nat → Chain α → Except (Fault × Chain α) (Chain α)
  | [], _, _, c => .ok c
  | l :: ls, i, position, c =>
    if l.activeCount = 0 then jacobianLoop ls (i + 1) position c
    else if ¬ position + l.activeCount ≤ c.rotD.length then
      .error (.assertion "position + active_count <= rotation_D_params_.cols()", c)
    else
      let nrot := l.activeRotationCount
      let angles := (c.rotD.drop position).take nrot
      match c.buf.transDRot[i]?, c.buf.rotDRot[i]?, c.buf.transDTrans[i]? with
      | some tDr, some rDr, some tDt =>
        -- `noalias` assignment of the rotation columns, then the translation columns
        match writeCols c.transD position (angles.map (mvec tDr) ++ activeTranslationCols l tDt),
            writeCols c.rotD position (angles.map (mvec rDr)) with
        | some transD, some rotD =>
          jacobianLoop ls (i + 1) (position + l.activeCount) { c with transD := transD, rotD := rotD }
        | _, _ => .error (.ub "translation_D_params_.middleCols", c)
      | _, _, _ => .error (.ub "chain_buffer_ middleCols<3>", c)

/-- `ActuatorChain::Update` (`transform_chains.cc:165-246`). A fault comes with the object as it is left. -/
def update (ext : Ext α) (params : List α) (c : Chain α) : Except (Fault × Chain α) (Chain α) :=
  if ¬ shouldUpdate c.cached params then .ok c
  else
    let c := { c with cached := params }
    let total := totalActive c.links
    if c.transD.length = 0 ∧ params.length ≠ total then .error (.assertion "Wrong number of params passed", c)
    else
      let c := if c.transD.length = 0 then
          { c with rotD := List.replicate total fun _ => 0, transD := List.replicate total fun _ => 0 } else c
      if params.length ≠ c.rotD.length then .error (.assertion "Mismatch between # params", c)
      else
        match posesLoop ext params c.links 0 0 { c with poses := resizePoses c.links.length c.poses } with
        | .error e => .error e
        | .ok c => jacobianLoop c.links 0 0 { c with buf := computeChain c.poses }

/-- `ActuatorChain::translation` (`transform_chains.hpp:184`): undefined before the buffer is filled. -/
def Chain.translation (c : Chain α) : Res (V3 α) :=
  match c.buf.iTEnd with
  | [] => .error (.ub "i_t_end.leftCols<1>()")
  | t :: _ => .ok t

/-- `ActuatorChain::rotation` (`transform_chains.hpp:187`). -/
def Chain.rotation (c : Chain α) : Res (Quat α) :=
  match c.buf.iREnd with
  | [] => .error (.ub "i_R_end.front()")
  | r :: _ => .ok r

end

end MiniOpt.TC
